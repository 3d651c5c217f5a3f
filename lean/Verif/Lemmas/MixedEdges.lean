import Verif.Model.MixedEdges
import Verif.Lemmas.MixedGraph

/-! Adjacency lists with an edge container and their vertex containers: what holds after any insertions.  What is about vertices follows
from a graph without an edge container with the same calls. -/

namespace Actl.Storage

open Actl.Ids

variable {α R β κ : Type} [LinearOrder κ] {key : α → κ} {dflt : α} {ordV : Order α} {rep : Rep Int R} {o : OrdersC Int R β}
  {junk : Int} {dir : Dir} {hasOut : Bool} {k ke kv : Kind} {g : MixedC α R β} {log : List (Insert α β × Got)}

/-- The orders of the graph compared with. -/
def sameOrder : OrdersN Int β :=
  ⟨fun _ => ⟨fun _ l => l, fun _ l => List.Perm.refl l⟩, fun _ => ⟨fun _ l => l, fun _ l => List.Perm.refl l⟩,
    ⟨fun _ l => l, fun _ l => List.Perm.refl l⟩⟩

/-- Both kinds of graphs grow in the same way. -/
theorem MixedC.growTo_eq {h : Mixed α β} (e : h.vs = g.vs) {u v : Int} {c : Cont α}
    (hg : h.growTo dflt u v = some { h with vs := c }) : g.growTo dflt u v = some { g with vs := c } := by
  obtain ⟨hvs, ha⟩ := h
  obtain ⟨gvs, ga⟩ := g
  dsimp only at e
  subst e
  unfold Mixed.growTo Mixed.vertexCount at hg
  unfold MixedC.growTo MixedC.vertexCount
  dsimp only at hg ⊢
  have hinj : ∀ {x y : Cont α}, some (⟨x, ha⟩ : Mixed α β) = some ⟨y, ha⟩ →
      some (⟨x, ga⟩ : MixedC α R β) = some ⟨y, ga⟩ := fun h => by
    have h' := congrArg Mixed.vs (Option.some.inj h)
    dsimp only at h'
    rw [h']
  by_cases h1 : hvs.kind.ra = true
  · rw [if_pos h1] at hg ⊢
    by_cases h2 : max u v ≥ (hvs.items.length : Int)
    · rw [if_pos h2] at hg ⊢
      by_cases h3 : max u v < 2 ^ 31 - 1
      · rw [if_pos h3] at hg ⊢
        exact hinj hg
      · rw [if_neg h3] at hg
        cases hg
    · rw [if_neg h2] at hg ⊢
      exact hinj hg
  · rw [if_neg h1] at hg ⊢
    exact hinj hg

/-- A graph without an edge container, after the same calls. -/
def Shadow (key : α → κ) (dflt : α) (ordV : Order α) (dir : Dir) (kv : Kind) (vs : Cont α) (log : List (Insert α β × Got))
    (h : Mixed α β) (log' : List (Insert α β × Got)) : Prop :=
  Made key dflt ordV sameOrder id dir .list kv h log' ∧ h.vs = vs ∧ vertexCalls log' = vertexCalls log ∧
    ∀ n, numbered n log' = numbered n log

structure CMInv (key : α → κ) (dflt : α) (ordV : Order α) (rep : Rep Int R) (dir : Dir) (hasOut : Bool) (k ke kv : Kind)
    (g : MixedC α R β) (log : List (Insert α β × Got)) : Prop where
  shadow : ∃ h log', Shadow key dflt ordV dir kv g.vs log h log'
  dirEq : g.adj.dir = dir
  outEq : g.adj.hasOut = hasOut
  len : k = .vec ∨ ke = .vec → (edgeCalls log).length < 2 ^ 31
  edges : ∃ es l, g.vs.ids = some l ∧ CInv rep k ke { g.adj with vertices := l } es ∧
    es.map strip = (accept k.unique dir.un [] ((edgeCalls log).map Prod.fst)).1 ∧
    ((edgeCalls log).map fun c => c.2.isSome) = (accept k.unique dir.un [] ((edgeCalls log).map Prod.fst)).2 ∧
    (edgeCalls log).filterMap Prod.snd = es.map (fun e => (e.1, e.2.1, e.2.2.2)) ∧
    es.length ≤ (edgeCalls log).length ∧
    ∀ c ∈ edgeCalls log, c.1.1 ∈ l ∧ c.1.2.1 ∈ l

theorem CMInv.init (hk : hasOut = false → k.assoc = false) (hke : ke.assoc = false) :
    CMInv key dflt ordV rep dir hasOut k ke kv (MixedC.init dir hasOut k ke kv : MixedC α R β) [] := by
  refine ⟨⟨Mixed.init dir .list kv, [], Made.init, rfl, rfl, fun _ => rfl⟩, rfl, rfl, fun _ => Nat.two_pow_pos 31,
    ⟨[], [], ?_, CInv.init rep dir hk hke List.nodup_nil, rfl, rfl, rfl, le_refl _, by simp [edgeCalls]⟩⟩
  have h0 : toInt 0 = 0 := toInt_of_lt (Nat.two_pow_pos 31)
  cases kv <;> simp [Cont.ids, MixedC.init, Cont.empty, Kind.ra, Cont.idEnd, h0]

theorem CMInv.vertex (h : CMInv key dflt ordV rep dir hasOut k ke kv g log) (x : α)
    (hl : kv = .vec → numbered 0 log < 2 ^ 31 - 1) :
    CMInv key dflt ordV rep dir hasOut k ke kv (g.tryAddVertex key ordV x).1
      (log ++ [(.vertex x, .vertex (g.tryAddVertex key ordV x).2.1 (g.tryAddVertex key ordV x).2.2)]) := by
  obtain ⟨m, log', s1, s2, s3, s4⟩ := h.shadow
  have hi := s1.inv
  have hl' : Legal .list kv log' (.vertex x : Insert α β) := fun hk => by rw [s4]; exact hl hk
  have hm := s1.snoc hl' rfl
  have hi' := hm.inv
  have hid : (m.tryAddVertex key ordV x).2 = (g.tryAddVertex key ordV x).2 := by
    simp only [Mixed.tryAddVertex, MixedC.tryAddVertex, s2]
  have hvs : (m.tryAddVertex key ordV x).1.vs = (g.tryAddVertex key ordV x).1.vs := by
    simp only [Mixed.tryAddVertex, MixedC.tryAddVertex, s2]
  have he : edgeCalls (log ++ [(.vertex x, .vertex (g.tryAddVertex key ordV x).2.1 (g.tryAddVertex key ordV x).2.2)]) =
      edgeCalls log := by
    rw [edgeCalls_append]; simp [edgeCalls]
  refine ⟨⟨_, _, hm, hvs, ?_, ?_⟩, h.dirEq, h.outEq, by rw [he]; exact h.len, ?_⟩
  · rw [vertexCalls_append, vertexCalls_append, s3, hid]
  · intro n
    rw [numbered_append, numbered_append, s4]
    rfl
  · obtain ⟨es, l, a1, a2, a3, a4, a5, a6, a7⟩ := h.edges
    have h4 := (idEmplace_spec ordV hi.wf hi.fits x).2.2.2.1
    obtain ⟨l0, b0, -, -, b3, -⟩ := ids_spec hi.wf hi.fits
    rw [s2] at b0
    obtain rfl := Option.some.inj (a1.symm.trans b0)
    obtain ⟨l', c0, c1, -, c3, -⟩ := ids_spec hi'.wf hi'.fits
    have hsub : ∀ w ∈ l, w ∈ l' := by
      intro w hw
      rw [c3]
      obtain ⟨y, hy⟩ := Option.isSome_iff_exists.mp ((b3 w).mp hw)
      show (Cont.at (m.vs.idEmplace key ordV x).1 w).isSome = true
      rw [h4 w y hy]; rfl
    refine ⟨es, l', by rw [← hvs]; exact c0, a2.grow c1 hsub, ?_⟩
    rw [he]
    exact ⟨a3, a4, a5, a6, fun c hc => ⟨hsub _ (a7 c hc).1, hsub _ (a7 c hc).2⟩⟩

theorem CMInv.edge (h : CMInv key dflt ordV rep dir hasOut k ke kv g log) (o : OrdersC Int R β) (junk : Int) {u v : Int} {b : β}
    (hl : LegalC k ke kv log (.edge u v b)) :
    ∃ g' e, g.tryAddEdge dflt rep o junk u v b = some (g', e) ∧
      CMInv key dflt ordV rep dir hasOut k ke kv g' (log ++ [(.edge u v b, .edge e)]) := by
  obtain ⟨⟨hl0, hl1, hl2⟩, hle⟩ := hl
  have hdir := h.dirEq
  subst hdir
  obtain ⟨m, log', s1, s2, s3, s4⟩ := h.shadow
  have hi := s1.inv
  have hl' : Legal .list kv log' (.edge u v b) := by
    refine ⟨fun h => (by cases h), ?_, ?_⟩
    · rw [s3]; exact hl1
    · rw [s3]; exact hl2
  have hend : ∀ w : Int, (if kv = .vec then 0 ≤ w ∧ w < 2 ^ 31 - 1 else ∃ c ∈ vertexCalls log, c.2.1 = w) →
      if m.vs.kind = .vec then 0 ≤ w ∧ w < 2 ^ 31 - 1 else (m.vs.at w).isSome = true := by
    intro w hw
    rw [hi.kind]
    by_cases hk : kv = .vec
    · rw [if_pos hk] at hw ⊢
      exact hw
    · rw [if_neg hk] at hw ⊢
      obtain ⟨c, hc, rfl⟩ := hw
      obtain ⟨y, hy, -⟩ := hi.logged c (by rw [s3]; exact hc)
      rw [hy]; rfl
  obtain ⟨c, p1, p2, p3, p4, p5, p6, p7, p8, p9, p10⟩ := growTo_spec dflt hi.wf hi.fits (hend u hl1) (hend v hl2)
  have q1 := MixedC.growTo_eq s2 p1
  obtain ⟨m', e', t1, t2, -⟩ := hi.edge sameOrder hl'
  have ht : m'.vs = c := by
    simp only [Mixed.tryAddEdge, p1] at t1
    split at t1
    · cases t1
    · split at t1
      · cases t1
      · rw [← (Prod.mk.inj (Option.some.inj t1)).1]
  have hmade : Made key dflt ordV sameOrder id g.adj.dir .list kv m' (log' ++ [(.edge u v b, .edge e')]) :=
    s1.snoc hl' (by simp only [Mixed.insert, t1, Option.map_some])
  obtain ⟨es, l, a1, a2, a3, a4, a5, a6, a7⟩ := h.edges
  obtain ⟨l0, b0, -, -, b3, -⟩ := ids_spec hi.wf hi.fits
  rw [s2] at b0
  obtain rfl := Option.some.inj (a1.symm.trans b0)
  obtain ⟨l', c0, c1, -, c3, -⟩ := ids_spec p2 p3
  have hsub : ∀ w ∈ l, w ∈ l' := by
    intro w hw
    rw [c3]
    obtain ⟨y, hy⟩ := Option.isSome_iff_exists.mp ((b3 w).mp hw)
    rw [p5 w y hy]; rfl
  have hg := a2.grow c1 hsub
  have hlen1 : k = .vec ∨ ke = .vec → (edgeCalls log).length + 1 < 2 ^ 31 := by
    rintro (hk | hk)
    · exact hl0 hk
    · exact hle hk
  have hlen : k = .vec ∨ ke = .vec → es.length < 2 ^ 31 := fun hk => by
    have := hlen1 hk
    omega
  have hs := hg.step hlen o junk (u := u) (v := v) ((c3 u).mpr p7) ((c3 v).mpr p8) b
  have hsee : ({ g with vs := c } : MixedC α R β).see = some { g.adj with vertices := l' } := by
    simp only [MixedC.see, c0, Option.map_some]
  have hmk : ∀ (adj : AdjC Int R β) (e : Option (EdgeN Int)), adj.dir = g.adj.dir → adj.hasOut = hasOut →
      (∃ es, CInv rep k ke { adj with vertices := l' } es ∧
        es.map strip = (accept k.unique g.adj.dir.un [] ((edgeCalls log).map Prod.fst ++ [(u, v, b)])).1 ∧
        ((edgeCalls log).map fun c => c.2.isSome) ++ [e.isSome] =
          (accept k.unique g.adj.dir.un [] ((edgeCalls log).map Prod.fst ++ [(u, v, b)])).2 ∧
        (edgeCalls log).filterMap Prod.snd ++ (match e with | none => [] | some e => [e]) =
          es.map (fun e => (e.1, e.2.1, e.2.2.2)) ∧ es.length ≤ (edgeCalls log).length + 1) →
      CMInv key dflt ordV rep g.adj.dir hasOut k ke kv ⟨c, adj⟩ (log ++ [(.edge u v b, .edge e)]) := by
    intro adj e hd ho ⟨es, q1, q2, q3, q4, q5⟩
    have he : edgeCalls (log ++ [(.edge u v b, .edge e)]) = edgeCalls log ++ [((u, v, b), e)] := by
      rw [edgeCalls_append]; simp [edgeCalls]
    refine ⟨⟨m', _, hmade, ht, ?_, ?_⟩, hd, ho, ?_, ?_⟩
    · rw [vertexCalls_append, vertexCalls_append, s3]; rfl
    · intro n
      rw [numbered_append, numbered_append, s4]; rfl
    · intro hk
      have := hlen1 hk
      rw [he, List.length_append, List.length_singleton]
      exact this
    · refine ⟨es, l', c0, q1, ?_, ?_, ?_, ?_, ?_⟩
      · rw [he, List.map_append]; exact q2
      · rw [he, List.map_append, List.map_append]; exact q3
      · rw [he, List.filterMap_append, ← q4]
        cases e <;> rfl
      · rw [he, List.length_append]; exact q5
      · rw [he]
        intro d hd
        rcases List.mem_append.mp hd with hd | hd
        · exact ⟨hsub _ (a7 d hd).1, hsub _ (a7 d hd).2⟩
        · rw [List.mem_singleton.mp hd]
          exact ⟨(c3 u).mpr p7, (c3 v).mpr p8⟩
  have hdup : (∃ d ∈ es, ends g.adj.dir.un d = ends g.adj.dir.un (u, v, (b, (0 : Int)))) ↔
      ∃ d ∈ (accept k.unique g.adj.dir.un [] ((edgeCalls log).map Prod.fst)).1, ends g.adj.dir.un d = ends g.adj.dir.un (u, v, b) := by
    rw [← a3]
    constructor
    · rintro ⟨d, hd, he⟩; exact ⟨_, List.mem_map_of_mem hd, he⟩
    · rintro ⟨d, hd, he⟩
      obtain ⟨f, hf, rfl⟩ := List.mem_map.mp hd
      exact ⟨f, hf, he⟩
  by_cases hd : k.unique = true ∧
      ∃ d ∈ (accept k.unique g.adj.dir.un [] ((edgeCalls log).map Prod.fst)).1, ends g.adj.dir.un d = ends g.adj.dir.un (u, v, b)
  · have hr := hs.1 ⟨hd.1, hdup.mpr hd.2⟩
    refine ⟨⟨c, { g.adj with vertices := l' }⟩, none, ?_, hmk _ none rfl h.outEq ⟨es, hg, ?_, ?_, ?_, by omega⟩⟩
    · simp only [MixedC.tryAddEdge, q1, hsee, hr]
    · rw [accept_snoc, if_pos hd]; exact a3
    · rw [accept_snoc, if_pos hd, a4]; rfl
    · rw [a5]; simp
  · obtain ⟨adj, id, r1, r2, r3, r4, r5⟩ := hs.2 fun hc => hd ⟨hc.1, hdup.mp hc.2⟩
    refine ⟨⟨c, adj⟩, some (u, v, id), ?_, hmk _ _ r3 (Eq.trans r5 h.outEq) ⟨es ++ [(u, v, (b, id))], ?_, ?_, ?_, ?_, ?_⟩⟩
    · simp only [MixedC.tryAddEdge, q1, hsee, r1]
    · have : ({ adj with vertices := l' } : AdjC Int R β) = adj := by
        rw [show l' = adj.vertices from r4.symm]
      rw [this]
      exact r2
    · rw [accept_snoc, if_neg hd, List.map_append, a3]; rfl
    · rw [accept_snoc, if_neg hd, a4]; rfl
    · rw [a5, List.map_append]; rfl
    · rw [List.length_append, List.length_singleton]
      omega

theorem MadeC.inv (h : MadeC key dflt ordV rep o junk dir hasOut k ke kv g log) (hk : hasOut = false → k.assoc = false)
    (hke : ke.assoc = false) : CMInv key dflt ordV rep dir hasOut k ke kv g log := by
  induction h with
  | init => exact CMInv.init hk hke
  | @snoc g log c g' a hm hl hs ih =>
    cases c with
    | vertex x =>
      simp only [MixedC.insert, Option.some.injEq, Prod.mk.injEq] at hs
      obtain ⟨rfl, rfl⟩ := hs
      exact ih.vertex x hl
    | edge u v b =>
      obtain ⟨g1, e, h1, h2⟩ := ih.edge o junk hl
      simp only [MixedC.insert, h1, Option.map_some, Option.some.injEq, Prod.mk.injEq] at hs
      obtain ⟨rfl, rfl⟩ := hs
      exact h2

end Actl.Storage
