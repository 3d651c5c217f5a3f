import Verif.Lemmas.AdjacencyN

/-! The adjacency list with an edge container: what it holds after any insertions. -/

namespace Actl.Storage

open Actl.Ids

variable {V R β : Type} [LinearOrder V]

/-- What is stored of an end in the out-edges, `AdjC.far`. -/
def farOf (hasOut : Bool) (v : V) : Option V := if hasOut then some v else none

/-- The out-edges of a vertex: what is stored of the other end, and the id of the edge. -/
def outC (hasOut un : Bool) (es : List (V × V × (β × Int))) (u : V) : List (Option V × Int) :=
  (outOf un es u).map fun d => (farOf hasOut d.1, d.2.2)

def inC (hasOut : Bool) (es : List (V × V × (β × Int))) (u : V) : List (Option V × Int) :=
  (inOf es u).map fun d => (farOf hasOut d.1, d.2.2)

/-- What is stored in the edge container. -/
def datumC (rep : Rep V R) (un : Bool) (e : V × V × (β × Int)) : R × β :=
  (rep.store (ends un e).1 (ends un e).2, e.2.2.1)

theorem outKey_far {hasOut : Bool} (h : hasOut = true) {u v : V} {i j : Int} :
    outKey (farOf hasOut u, i) = outKey (farOf hasOut v, j) ↔ u = v := by
  subst h
  simp only [outKey, farOf, if_true]
  constructor
  · intro e; exact Option.some.inj e
  · intro e; rw [e]

theorem unique_assoc {k : Kind} (h : k.unique = true) : k.assoc = true := by revert h; cases k <;> decide

theorem dupC {k : Kind} {hasOut un : Bool} (hk : hasOut = false → k.assoc = false)
    {es : List (V × V × (β × Int))} {u v : V} {j : Int} {t : β × Int} :
    (k.unique = true ∧ ∃ y ∈ outC hasOut un es u, outKey y = outKey (farOf hasOut v, j)) ↔
      (k.unique = true ∧ ∃ d ∈ es, ends un d = ends un (u, v, t)) := by
  rw [← dup_outOf (t := t)]
  refine and_congr_right fun hu => ?_
  have ho : hasOut = true := by
    rw [← Bool.not_eq_false]; intro hc
    have := hk hc; rw [unique_assoc hu] at this; simp at this
  unfold outC
  constructor
  · rintro ⟨y, hy, e⟩
    obtain ⟨d, hd, rfl⟩ := List.mem_map.mp hy
    exact ⟨d, hd, (outKey_far ho).mp e⟩
  · rintro ⟨d, hd, e⟩
    exact ⟨_, List.mem_map_of_mem hd, (outKey_far ho).mpr e⟩

theorem outC_append (hasOut un : Bool) (es : List (V × V × (β × Int))) (e : V × V × (β × Int)) (u : V) :
    outC hasOut un (es ++ [e]) u = outC hasOut un es u ++
      (if e.1 = u then [(farOf hasOut e.2.1, e.2.2.2)]
        else if un = true ∧ e.2.1 = u then [(farOf hasOut e.1, e.2.2.2)] else []) := by
  unfold outC
  rw [outOf_append, List.map_append]
  congr 1
  by_cases h1 : e.1 = u
  · simp [h1]
  · by_cases h2 : un = true ∧ e.2.1 = u <;> simp [h1, h2]

theorem inC_append (hasOut : Bool) (es : List (V × V × (β × Int))) (e : V × V × (β × Int)) (u : V) :
    inC hasOut (es ++ [e]) u = inC hasOut es u ++ (if e.2.1 = u then [(farOf hasOut e.1, e.2.2.2)] else []) := by
  unfold inC
  rw [inOf_append, List.map_append]
  congr 1
  by_cases h1 : e.2.1 = u <;> simp [h1]

/-- The graph holds exactly these edges; each comes with its bundle and its id. -/
structure CInv (rep : Rep V R) (k ke : Kind) (g : AdjC V R β) (es : List (V × V × (β × Int))) : Prop where
  nd : g.vertices.Nodup
  closed : ∀ e ∈ es, e.1 ∈ g.vertices ∧ e.2.1 ∈ g.vertices
  kindO : ∀ u, (g.outs u).kind = k
  kindI : ∀ u, (g.ins u).kind = k
  kindE : g.edges.cont.kind = ke
  eun : g.edges.undirected = g.dir.un
  hk : g.hasOut = false → k.assoc = false
  hke : ke.assoc = false
  out : ∀ u, Has outKey (g.outs u) (outC g.hasOut g.dir.un es u)
  inn : g.dir.bi = true → ∀ u, Has outKey (g.ins u) (inC g.hasOut es u)
  edg : Has (fun _ => (0 : Nat)) g.edges.cont (es.map (datumC rep g.dir.un))
  ids : ∀ e ∈ es, g.edges.cont.at e.2.2.2 = some (datumC rep g.dir.un e)
  idn : (es.map fun e => e.2.2.2).Nodup

theorem CInv.init (rep : Rep V R) (dir : Dir) {hasOut : Bool} {k ke : Kind}
    (hk : hasOut = false → k.assoc = false) (hke : ke.assoc = false) {vs : List V} (h : vs.Nodup) :
    CInv rep k ke (AdjC.init dir hasOut k ke vs : AdjC V R β) [] :=
  ⟨h, fun _ h => absurd h List.not_mem_nil, fun _ => rfl, fun _ => rfl, rfl, rfl, hk, hke,
    fun _ => Has.empty _ _, fun _ _ => Has.empty _ _, Has.empty _ _, fun _ h => absurd h List.not_mem_nil,
    List.nodup_nil⟩

theorem CInv.grow {rep : Rep V R} {k ke : Kind} {g : AdjC V R β} {es} (h : CInv rep k ke g es) {vs : List V}
    (hn : vs.Nodup) (hs : ∀ v ∈ g.vertices, v ∈ vs) : CInv rep k ke { g with vertices := vs } es :=
  ⟨hn, fun e he => ⟨hs _ (h.closed e he).1, hs _ (h.closed e he).2⟩, h.kindO, h.kindI, h.kindE, h.eun, h.hk,
    h.hke, h.out, h.inn, h.edg, h.ids, h.idn⟩

theorem ra_vec {k : Kind} (h : k.ra = true) : k = .vec := by revert h; cases k <;> simp [Kind.ra]

theorem CInv.fits {rep : Rep V R} {k ke : Kind} {g : AdjC V R β} {es} (h : CInv rep k ke g es)
    (hl : k = .vec ∨ ke = .vec → es.length < 2 ^ 31) (u : V) : (g.outs u).Fits := fun hr => by
  have h1 := (h.out u).length
  have h2 := outOf_length g.dir.un es u
  rw [outC, List.length_map] at h1
  have := hl (Or.inl (ra_vec (by rw [← h.kindO u]; exact hr)))
  omega

theorem CInv.fitsI {rep : Rep V R} {k ke : Kind} {g : AdjC V R β} {es} (h : CInv rep k ke g es)
    (hl : k = .vec ∨ ke = .vec → es.length < 2 ^ 31) (hb : g.dir.bi = true) (u : V) : (g.ins u).Fits :=
  fun hr => by
  have h1 := (h.inn hb u).length
  have h2 := inOf_length es u
  rw [inC, List.length_map] at h1
  have := hl (Or.inl (ra_vec (by rw [← h.kindI u]; exact hr)))
  omega

theorem CInv.fitsE {rep : Rep V R} {k ke : Kind} {g : AdjC V R β} {es} (h : CInv rep k ke g es)
    (hl : k = .vec ∨ ke = .vec → es.length < 2 ^ 31) : g.edges.cont.Fits := fun hr => by
  have h1 := h.edg.length
  rw [List.length_map] at h1
  have := hl (Or.inr (ra_vec (by rw [← h.kindE]; exact hr)))
  omega

/-- One call of `try_add_edge`. -/
theorem CInv.step {rep : Rep V R} {k ke : Kind} {g : AdjC V R β} {es} (h : CInv rep k ke g es)
    (hl : k = .vec ∨ ke = .vec → es.length < 2 ^ 31) (o : OrdersC V R β) (junk : Int) {u v : V}
    (hu : u ∈ g.vertices) (hv : v ∈ g.vertices) (b : β) :
    ((k.unique = true ∧ ∃ d ∈ es, ends g.dir.un d = ends g.dir.un (u, v, (b, 0))) →
      g.tryAddEdgeImpl rep o junk u v b = some (g, none)) ∧
    (¬(k.unique = true ∧ ∃ d ∈ es, ends g.dir.un d = ends g.dir.un (u, v, (b, 0))) →
      ∃ g' id, g.tryAddEdgeImpl rep o junk u v b = some (g', some (u, v, id)) ∧
        CInv rep k ke g' (es ++ [(u, v, (b, id))]) ∧ g'.dir = g.dir ∧ g'.vertices = g.vertices ∧
        g'.hasOut = g.hasOut) := by
  constructor
  · rintro ⟨hk, hd⟩
    have h1 := (dupC (v := v) (j := junk) (t := (b, 0)) h.hk).mpr ⟨hk, hd⟩
    have := (h.out u).refuse (h.fits hl u) (o.out u) (x := (g.far v, junk))
      ⟨by rw [h.kindO]; exact hk, h1.2⟩
    simp only [AdjC.tryAddEdgeImpl, hu, not_true_eq_false, if_false, this, if_true]
  · intro hd
    have hnd1 : ∀ j, ¬((g.outs u).kind.unique = true ∧
        ∃ y ∈ outC g.hasOut g.dir.un es u, outKey y = outKey (g.far v, j)) := by
      intro j hc
      rw [h.kindO] at hc
      exact hd ((dupC (t := (b, 0)) h.hk).mp hc)
    -- the edge list
    have hek : g.edges.cont.kind.unique = false := by
      rw [← Bool.not_eq_true]; intro hc
      have := unique_assoc hc; rw [h.kindE, h.hke] at this; simp at this
    obtain ⟨-, c2, c3, c4, c5, c6⟩ := h.edg.add (h.fitsE hl) o.edge
      (x := (rep.store (ends g.dir.un (u, v, (b, (0 : Int)))).1 (ends g.dir.un (u, v, (b, (0 : Int)))).2, b))
      (by rw [hek]; simp)
    have hel : g.edges.tryAddEdge rep (fun _ => (0 : Nat)) o.edge u v b =
        ({ g.edges with cont := (g.edges.cont.idEmplace (fun _ => (0 : Nat)) o.edge
            (rep.store (ends g.dir.un (u, v, (b, (0 : Int)))).1 (ends g.dir.un (u, v, (b, (0 : Int)))).2, b)).1 },
          ((ends g.dir.un (u, v, (b, (0 : Int)))).1, (ends g.dir.un (u, v, (b, (0 : Int)))).2,
            (g.edges.cont.idEmplace (fun _ => (0 : Nat)) o.edge
              (rep.store (ends g.dir.un (u, v, (b, (0 : Int)))).1 (ends g.dir.un (u, v, (b, (0 : Int)))).2, b)).2.1),
          (g.edges.cont.idEmplace (fun _ => (0 : Nat)) o.edge
            (rep.store (ends g.dir.un (u, v, (b, (0 : Int)))).1 (ends g.dir.un (u, v, (b, (0 : Int)))).2, b)).2.2) := by
      have := normEnds_eq g.dir.un (u, v, (b, (0 : Int)))
      simp only at this
      simp only [EdgeList.tryAddEdge, h.eun, this]
    generalize hre : g.edges.cont.idEmplace (fun _ => (0 : Nat)) o.edge
      (rep.store (ends g.dir.un (u, v, (b, (0 : Int)))).1 (ends g.dir.un (u, v, (b, (0 : Int)))).2, b) = re at *
    obtain ⟨a1, a2, a3⟩ := (h.out u).addModify (h.fits hl u) (o.out u) (hnd1 junk)
      (fun d => (d.1, re.2.1)) (fun _ => rfl)
    have hnf : ¬ ((g.outs u).idEmplace outKey (o.out u) (g.far v, junk)).2.2 = false := by rw [a1]; simp
    generalize hr : (g.outs u).idEmplace outKey (o.out u) (g.far v, junk) = r at *
    generalize hm : r.1.modify r.2.1 (fun d => (d.1, re.2.1)) = cu at *
    have hun : g.dir.un = true ↔ g.dir = .undirected := by cases g.dir <;> simp [Dir.un]
    have hclosed : ∀ e ∈ es ++ [(u, v, (b, re.2.1))], e.1 ∈ g.vertices ∧ e.2.1 ∈ g.vertices := by
      intro e he
      rcases List.mem_append.mp he with he | he
      · exact h.closed e he
      · rw [List.mem_singleton.mp he]; exact ⟨hu, hv⟩
    have hids : ∀ e ∈ es ++ [(u, v, (b, re.2.1))], re.1.at e.2.2.2 = some (datumC rep g.dir.un e) := by
      intro e he
      rcases List.mem_append.mp he with he | he
      · exact c6 _ _ (h.ids e he)
      · rw [List.mem_singleton.mp he]; exact c4
    have hedg : Has (fun _ => (0 : Nat)) re.1 ((es ++ [(u, v, (b, re.2.1))]).map (datumC rep g.dir.un)) := by
      rw [List.map_append]; exact c2
    have hidn : ((es ++ [(u, v, (b, re.2.1))]).map fun e => e.2.2.2).Nodup := by
      rw [List.map_append, List.nodup_append]
      refine ⟨h.idn, by simp, ?_⟩
      intro x hx y hy hxy
      obtain ⟨e, he, rfl⟩ := List.mem_map.mp hx
      rw [List.map_singleton, List.mem_singleton] at hy
      rw [hy] at hxy
      have := h.ids e he
      rw [hxy, c5] at this
      simp at this
    have hkE : re.1.kind = ke := by rw [c3]; exact h.kindE
    have hout1 : ∀ w, (w = v → g.dir.un = true → u = v) → Has outKey (setAt g.outs u cu w)
        (outC g.hasOut g.dir.un (es ++ [(u, v, (b, re.2.1))]) w) := by
      intro w hw
      rw [outC_append]
      by_cases hwu : w = u
      · subst hwu; rw [setAt_same]; simp only [if_true]; exact a2
      · rw [setAt_ne _ hwu]
        have : ¬ (g.dir.un = true ∧ v = w) := by
          rintro ⟨h1, h2⟩; exact hwu (by rw [← h2]; exact (hw h2.symm h1).symm)
        simp only [Ne.symm hwu, if_false, this, List.append_nil]
        exact h.out w
    have hkO : ∀ w, (setAt g.outs u cu w).kind = k := by
      intro w
      by_cases hwu : w = u
      · rw [hwu, setAt_same, a3]; exact h.kindO u
      · rw [setAt_ne _ hwu]; exact h.kindO w
    rcases hdir : g.dir with _ | _ | _
    · -- directed
      refine ⟨⟨g.dir, g.hasOut, g.vertices, setAt g.outs u cu, g.ins, { g.edges with cont := re.1 }⟩, re.2.1,
        ?_, ?_, hdir, rfl, rfl⟩
      · simp only [AdjC.tryAddEdgeImpl, hu, not_true_eq_false, if_false, hel, hm, hr, a1, hdir]; rfl
      · exact ⟨h.nd, hclosed, hkO, h.kindI, hkE, h.eun, h.hk, h.hke, fun w => hout1 w (by simp [hdir, Dir.un]),
          fun hb => by simp [hdir, Dir.bi] at hb, hedg, hids, hidn⟩
    · -- undirected
      have hu1 : g.dir.un = true := hun.mpr hdir
      by_cases huv : u = v
      · refine ⟨⟨g.dir, g.hasOut, g.vertices, setAt g.outs u cu, g.ins, { g.edges with cont := re.1 }⟩, re.2.1,
          ?_, ?_, hdir, rfl, rfl⟩
        · simp only [AdjC.tryAddEdgeImpl, hu, not_true_eq_false, if_false, hel, hm, hr, a1, hdir]
          rw [if_neg (by simp), if_neg (by simpa using huv)]
        · exact ⟨h.nd, hclosed, hkO, h.kindI, hkE, h.eun, h.hk, h.hke, fun w => hout1 w (fun _ _ => huv),
            fun hb => by simp [hdir, Dir.bi] at hb, hedg, hids, hidn⟩
      · have hvu : v ≠ u := fun e => huv e.symm
        obtain ⟨b1, b2, b3, -⟩ := (h.out v).add (h.fits hl v) (o.out v) (x := (g.far u, re.2.1)) (by
          rintro ⟨hk, hx⟩
          rw [h.kindO] at hk
          obtain ⟨-, d, hd1, hd2⟩ := (dupC (t := (b, 0)) h.hk).mp ⟨hk, hx⟩
          refine hd ⟨hk, d, hd1, hd2.trans ?_⟩
          exact (ends_eq_iff (d := (v, u, (b, (0 : Int)))) (e := (u, v, (b, 0)))).mpr (Or.inr ⟨hu1, rfl, rfl⟩))
        generalize hr2 : (g.outs v).idEmplace outKey (o.out v) (g.far u, re.2.1) = r2 at *
        refine ⟨⟨g.dir, g.hasOut, g.vertices, setAt (setAt g.outs u cu) v r2.1, g.ins,
          { g.edges with cont := re.1 }⟩, re.2.1, ?_, ?_, hdir, rfl, rfl⟩
        · have hr3 : (g.outs v).idEmplace outKey (o.out v)
              (AdjC.far ⟨g.dir, g.hasOut, g.vertices, setAt g.outs u cu, g.ins,
                { g.edges with cont := re.1 }⟩ u, re.2.1) = r2 := hr2
          simp only [AdjC.tryAddEdgeImpl, hu, hv, not_true_eq_false, if_false, hel, hm, hr, a1, hdir,
            setAt_ne _ hvu]
          rw [hdir] at hr3
          rw [if_neg (by simp), if_pos huv, hr3]
        · refine ⟨h.nd, hclosed, ?_, h.kindI, hkE, h.eun, h.hk, h.hke, ?_,
            fun hb => by simp [hdir, Dir.bi] at hb, hedg, hids, hidn⟩
          · intro w
            by_cases hwv : w = v
            · simp only [hwv, setAt_same]; rw [b3]; exact h.kindO v
            · simp only [setAt_ne _ hwv]; exact hkO w
          · intro w
            by_cases hwv : w = v
            · subst hwv
              simp only [setAt_same]
              rw [outC_append]
              rw [hu1] at b2 ⊢
              simp only [huv, if_false, true_and, if_true]
              exact b2
            · simp only [setAt_ne _ hwv]
              exact hout1 w (fun e => absurd e hwv)
    · -- bidirectional
      have hb : g.dir.bi = true := by rw [hdir]; rfl
      have hu0 : g.dir.un = false := by rw [hdir]; rfl
      obtain ⟨b1, b2, b3, -⟩ := (h.inn hb v).add (h.fitsI hl hb v) (o.inn v) (x := (g.far u, re.2.1)) (by
        rintro ⟨hk, y, hy, e⟩
        rw [h.kindI] at hk
        have ho : g.hasOut = true := by
          rw [← Bool.not_eq_false]; intro hc
          have := h.hk hc; rw [unique_assoc hk] at this; simp at this
        obtain ⟨d, hd1, rfl⟩ := List.mem_map.mp hy
        unfold inOf at hd1
        rw [List.mem_filterMap] at hd1
        obtain ⟨f, hf, hf2⟩ := hd1
        have e := (outKey_far ho).mp e
        split at hf2
        · rename_i hfv
          have hf2 := Option.some.inj hf2
          refine hd ⟨hk, f, hf, (ends_eq_iff (e := (u, v, (b, 0)))).mpr (Or.inl ⟨?_, hfv⟩)⟩
          rw [← hf2] at e; exact e
        · simp at hf2)
      generalize hr2 : (g.ins v).idEmplace outKey (o.inn v) (g.far u, re.2.1) = r2 at *
      refine ⟨⟨g.dir, g.hasOut, g.vertices, setAt g.outs u cu, setAt g.ins v r2.1,
          { g.edges with cont := re.1 }⟩, re.2.1, ?_, ?_, hdir, rfl, rfl⟩
      · have hr3 : (g.ins v).idEmplace outKey (o.inn v)
              (AdjC.far ⟨g.dir, g.hasOut, g.vertices, setAt g.outs u cu, g.ins,
                { g.edges with cont := re.1 }⟩ u, re.2.1) = r2 := hr2
        simp only [AdjC.tryAddEdgeImpl, hu, hv, not_true_eq_false, if_false, hel, hm, hr, a1, hdir]
        rw [hdir] at hr3
        rw [if_neg (by simp), hr3]
      · refine ⟨h.nd, hclosed, hkO, ?_, hkE, h.eun, h.hk, h.hke, fun w => hout1 w (by simp [hu0]), ?_, hedg,
          hids, hidn⟩
        · intro w
          by_cases hwv : w = v
          · simp only [hwv, setAt_same]; rw [b3]; exact h.kindI v
          · simp only [setAt_ne _ hwv]; exact h.kindI w
        · intro _ w
          rw [inC_append]
          by_cases hwv : w = v
          · subst hwv; simp only [setAt_same, if_true]; exact b2
          · simp only [setAt_ne _ hwv, Ne.symm hwv, if_false, List.append_nil]; exact h.inn hb w

end Actl.Storage
