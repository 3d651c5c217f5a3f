import Verif.Lemmas.BundleStores

/-! C137: assignment to the bundles of edges and vertices. -/

namespace Actl.Storage

open Actl.Ids

variable {V R α β κ : Type} [LinearOrder V] [LinearOrder κ]

/-! ### One assignment -/

theorem at_modify (c : Cont α) (id id' : Int) (f : α → α) :
    (c.modify id f).at id' = if id' = id then (c.at id').map f else c.at id' := by
  unfold Cont.at Cont.modify
  cases hk : c.kind.ra
  · simp only [Bool.false_eq_true, if_false, List.find?_map, Option.map_map]
    have : ((fun p : Nat × α => (p.1 : Int) == id') ∘ fun p => if (p.1 : Int) = id then (p.1, f p.2) else p) =
        fun p => (p.1 : Int) == id' := by
      funext p; simp only [Function.comp]; split <;> rfl
    rw [this]
    rcases hf : c.items.find? (fun p => (p.1 : Int) == id') with _ | p
    · simp [hf]
    · have hp : (p.1 : Int) = id' := by simpa using List.find?_some hf
      rw [hf]
      by_cases he : id' = id
      · rw [if_pos he]; simp [hp, he]
      · rw [if_neg he]; simp [hp, he]
  · simp only [if_true, Cont.values]
    by_cases h0 : 0 ≤ id'
    · simp only [h0, if_true]
      by_cases h1 : 0 ≤ id
      · simp only [h1, if_true, List.getElem?_map, List.getElem?_modify]
        by_cases he : id' = id
        · subst he
          rcases c.items[id'.toNat]? with _ | p <;> simp
        · have : id.toNat ≠ id'.toNat := by omega
          rcases c.items[id'.toNat]? with _ | p <;> simp [he, this]
      · have : id' ≠ id := by omega
        simp [h1, this]
    · simp [h0]

theorem modify_items (c : Cont α) (id : Int) (f : α → α) :
    (c.modify id f).items.map Prod.fst = c.items.map Prod.fst ∧
    (c.modify id f).items.length = c.items.length ∧
    ((c.modify id f).ids = c.ids ∧ (∀ i, (c.modify id f).iteratorToId i = c.iteratorToId i)) := by
  have h1 : (c.modify id f).items.map Prod.fst = c.items.map Prod.fst := by
    unfold Cont.modify
    simp only
    split
    · split
      · refine List.ext_getElem? fun i => ?_
        rw [List.getElem?_map, List.getElem?_map, List.getElem?_modify]
        rcases c.items[i]? with _ | p
        · simp
        · simp only [Option.map_some]
          by_cases h : id.toNat = i <;> simp [h]
      · rfl
    · rw [List.map_map]
      refine List.map_congr_left fun p _ => ?_
      simp only [Function.comp]; split <;> rfl
  have h2 : (c.modify id f).items.length = c.items.length := by
    have := congrArg List.length h1
    simpa using this
  have hk : (c.modify id f).kind = c.kind := rfl
  have hm : ∀ l : List (Nat × α), (l.map fun p => (p.1 : Int)) = (l.map Prod.fst).map fun n : Nat => (n : Int) := by
    intro l; rw [List.map_map]; rfl
  refine ⟨h1, h2, ?_, fun i => ?_⟩
  · simp only [Cont.ids, Cont.idEnd, hk, h2]
    rw [hm, hm, h1]
    rfl
  · simp only [Cont.iteratorToId, hk]
    split
    · rfl
    · have : (c.modify id f).items[i]?.map Prod.fst = c.items[i]?.map Prod.fst := by
        rw [← List.getElem?_map, h1, List.getElem?_map]
      rcases h3 : (c.modify id f).items[i]? with _ | p <;> rcases h4 : c.items[i]? with _ | q
      · rfl
      · rw [h3, h4] at this; simp at this
      · rw [h3, h4] at this; simp at this
      · rw [h3, h4] at this
        simp only [Option.map_some, Option.some.injEq] at this
        simp only [this]

theorem modify_findPos {γ : Type} [LinearOrder γ] {key : α → γ} (c : Cont α) (id : Int) {f : α → α}
    (hf : ∀ y, key (f y) = key y) (k : γ) : (c.modify id f).findPos key k = c.findPos key k := by
  have h : (c.modify id f).items.map (fun p => key p.2) = c.items.map fun p => key p.2 := by
    unfold Cont.modify
    simp only
    split
    · split
      · refine List.ext_getElem? fun i => ?_
        rw [List.getElem?_map, List.getElem?_map, List.getElem?_modify]
        rcases c.items[i]? with _ | p
        · simp
        · simp only [Option.map_some]
          by_cases h : id.toNat = i <;> simp [h, hf]
      · rfl
    · rw [List.map_map]
      refine List.map_congr_left fun p _ => ?_
      simp only [Function.comp]; split
      · exact hf _
      · rfl
  have e : ∀ l : List (Nat × α), l.findIdx (fun p => decide (key p.2 = k)) =
      (l.map fun p => key p.2).findIdx fun x => decide (x = k) := by
    intro l; rw [List.findIdx_map]; rfl
  rw [Cont.findPos, Cont.findPos, e, e, h]

/-- An assignment to the bundle of an edge of an edge list, in any state: it is defined whenever the bundle can be
read; afterwards the edge has the new bundle, all others have theirs, and the edges, their number, their
order and the results of `find_edge` are the same. -/
theorem EdgeList.write_spec (el : EdgeList (V × V) β) (e : EdgeN V) (x : β) :
    ((el.write e x).isSome = (el.bundle e).isSome) ∧
    ∀ el', el.write e x = some el' →
      el'.bundle e = some x ∧ (∀ e' : EdgeN V, sameC e' e = false → el'.bundle e' = el.bundle e') ∧
      el'.edgeCount = el.edgeCount ∧ (el'.edges : Option (List (EdgeN V))) = el.edges ∧
      ∀ u v : V, el'.findEdge u v = el.findEdge u v := by
  constructor
  · simp only [EdgeList.write, EdgeList.bundle]
    rcases el.cont.at e.2.2 with _ | d <;> rfl
  · intro el' hw
    obtain ⟨d, ha, rfl⟩ := EdgeList.write_some hw
    obtain ⟨-, h2, h3, h4⟩ := modify_items el.cont e.2.2 fun d => (d.1, x)
    have hfst : ∀ id, ((el.cont.modify e.2.2 fun d => (d.1, x)).at id).map Prod.fst =
        (el.cont.at id).map Prod.fst := by
      intro id
      rw [at_modify]
      split
      · rcases el.cont.at id with _ | d <;> rfl
      · rfl
    refine ⟨?_, fun e' he => ?_, h2, ?_, fun u v => ?_⟩
    · simp only [EdgeList.bundle, at_modify, if_true, ha, Option.map_some]
    · have : e'.2.2 ≠ e.2.2 := of_decide_eq_false he
      simp only [EdgeList.bundle, at_modify, this, if_false]
    · simp only [EdgeList.edges, h3]
      have : ∀ id : Int, ((el.cont.modify e.2.2 fun d => (d.1, x)).at id).map
          (fun d => ((d.1.1, d.1.2, id) : EdgeN V)) = (el.cont.at id).map fun d => (d.1.1, d.1.2, id) := by
        intro id
        have := congrArg (Option.map fun p : V × V => ((p.1, p.2, id) : EdgeN V)) (hfst id)
        rw [Option.map_map, Option.map_map] at this
        exact this
      simp only [this]
    · simp only [EdgeList.findEdge, Cont.idFind, h4]
      rw [modify_findPos (key := fun d : (V × V) × β => endsKey d.1) (f := fun d => (d.1, x)) _ _ (fun _ => rfl)]

/-- The same with an adjacency list with an edge container, in any state; the vertices, the out-edges and
in-edges of each and the results of the other functions are the same. -/
theorem AdjC.write_spec (rep : Rep V R) (g : AdjC V R β) (e : EdgeN V) (x : β) :
    ((g.write e x).isSome = (g.bundle e).isSome) ∧
    ∀ g', g.write e x = some g' →
      g'.bundle e = some x ∧ (∀ e', sameC e' e = false → g'.bundle e' = g.bundle e') ∧
      g'.vertices = g.vertices ∧ g'.edgeCount = g.edgeCount ∧
      (∀ u, g'.outEdges rep u = g.outEdges rep u ∧ g'.inEdges rep u = g.inEdges rep u) ∧
      (∀ fuel, g'.allEdges rep fuel = g.allEdges rep fuel) ∧
      ∀ u v, g'.findEdge rep u v = g.findEdge rep u v := by
  constructor
  · simp only [AdjC.write, EdgeList.write, AdjC.bundle]
    rcases g.edges.cont.at e.2.2 with _ | d <;> rfl
  · intro g' hw
    simp only [AdjC.write] at hw
    rcases hwe : g.edges.write e x with _ | el'
    · simp [hwe] at hw
    · simp only [hwe, Option.some.injEq] at hw
      subst hw
      obtain ⟨d, ha, rfl⟩ := EdgeList.write_some hwe
      have hget : ∀ u t, AdjC.getEdge rep { g with edges := { g.edges with
          cont := g.edges.cont.modify e.2.2 fun d => (d.1, x) } } u t = g.getEdge rep u t := by
        intro u t
        simp only [AdjC.getEdge, EdgeList.getTarget, at_modify]
        rcases t.1 with _ | v
        · simp only
          split
          · rcases g.edges.cont.at t.2 with _ | d <;> rfl
          · rfl
        · rfl
      have hout : ∀ u, AdjC.outEdges rep { g with edges := { g.edges with
          cont := g.edges.cont.modify e.2.2 fun d => (d.1, x) } } u = g.outEdges rep u := by
        intro u
        simp only [AdjC.outEdges]
        have : AdjC.getEdge rep { g with edges := { g.edges with
          cont := g.edges.cont.modify e.2.2 fun d => (d.1, x) } } u = g.getEdge rep u := funext (hget u)
        rw [this]
      refine ⟨?_, fun e' he => ?_, rfl, (modify_items _ _ _).2.1, fun u => ⟨hout u, ?_⟩, fun fuel => ?_,
        fun u v => ?_⟩
      · simp only [AdjC.bundle, at_modify, if_true, ha, Option.map_some]
      · have : e'.2.2 ≠ e.2.2 := of_decide_eq_false he
        simp only [AdjC.bundle, at_modify, this, if_false]
      · have : AdjC.getEdge rep { g with edges := { g.edges with
          cont := g.edges.cont.modify e.2.2 fun d => (d.1, x) } } u = g.getEdge rep u := funext (hget u)
        simp only [AdjC.inEdges, hout]
        rw [this]
      · simp only [AdjC.allEdges, hout]
      · simp only [AdjC.findEdge, hout, hget]

/-- The same without an edge container; the edge is then the one of the out-edges of its source. -/
theorem AdjN.write_spec (g : AdjN V β) (e : EdgeN V) (x : β) :
    (e.1 ∈ g.vertices → (g.write e x).isSome = (g.bundle e).isSome) ∧
    ∀ g', g.write e x = some g' →
      g'.bundle e = some x ∧ (∀ e', sameN e' e = false → g'.bundle e' = g.bundle e') ∧
      g'.vertices = g.vertices ∧ g'.edgeCount = g.edgeCount ∧
      (∀ u, g'.outEdges u = g.outEdges u ∧ g'.inEdges u = g.inEdges u) ∧
      (∀ fuel, g'.allEdges fuel = g.allEdges fuel) ∧
      ∀ u v, g'.findEdge u v = g.findEdge u v := by
  constructor
  · intro hv
    simp only [AdjN.write, hv, not_true_eq_false, if_false, AdjN.bundle]
    rcases (g.outs e.1).at e.2.2 with _ | d <;> rfl
  · intro g' hw
    obtain ⟨hv, d, ha, rfl⟩ := AdjN.write_some hw
    obtain ⟨-, h2, h3, h4⟩ := modify_items (g.outs e.1) e.2.2 fun d => (d.1, x)
    have hget : ∀ u t, AdjN.getEdge { g with
        outs := setAt g.outs e.1 ((g.outs e.1).modify e.2.2 fun d => (d.1, x)) } u t = g.getEdge u t := by
      intro u t
      simp only [AdjN.getEdge]
      by_cases hu : u = e.1
      · subst hu
        rw [setAt_same, at_modify]
        split
        · rcases (g.outs e.1).at t with _ | d <;> rfl
        · rfl
      · rw [setAt_ne _ hu]
    have hids : ∀ u, (setAt g.outs e.1 ((g.outs e.1).modify e.2.2 fun d => (d.1, x)) u).ids = (g.outs u).ids := by
      intro u
      by_cases hu : u = e.1
      · rw [hu, setAt_same, h3]
      · rw [setAt_ne _ hu]
    have hout : ∀ u, AdjN.outEdges { g with
        outs := setAt g.outs e.1 ((g.outs e.1).modify e.2.2 fun d => (d.1, x)) } u = g.outEdges u := by
      intro u
      simp only [AdjN.outEdges, hids]
      have : AdjN.getEdge { g with
        outs := setAt g.outs e.1 ((g.outs e.1).modify e.2.2 fun d => (d.1, x)) } u = g.getEdge u := funext (hget u)
      rw [this]
    refine ⟨?_, fun e' he => ?_, rfl, rfl, fun u => ⟨hout u, ?_⟩, fun fuel => ?_, fun u v => ?_⟩
    · simp only [AdjN.bundle, setAt_same, at_modify, if_true, ha, Option.map_some]
    · simp only [AdjN.bundle]
      by_cases hu : e'.1 = e.1
      · have : e'.2.2 ≠ e.2.2 := by
          intro hc
          rw [(sameN_iff e' e).mpr ⟨hu, hc⟩] at he
          exact Bool.noConfusion he
        rw [hu, setAt_same, at_modify, if_neg this]
      · rw [setAt_ne _ hu]
    · simp only [AdjN.inEdges, hout]
    · simp only [AdjN.allEdges, hout]
    · have hf : (setAt g.outs e.1 ((g.outs e.1).modify e.2.2 fun d => (d.1, x)) u).idFind Prod.fst v =
          (g.outs u).idFind Prod.fst v := by
        by_cases hu : u = e.1
        · rw [hu, setAt_same]
          simp only [Cont.idFind, h4]
          rw [modify_findPos (key := Prod.fst) (f := fun d : V × β => (d.1, x)) _ _ (fun _ => rfl)]
        · rw [setAt_ne _ hu]
      simp only [AdjN.findEdge, hf, hget]

/-! ### Programs of insertions and assignments -/

theorem addSeq_edgeList (rep : Rep V (V × V)) (hrep : rep = twoRep V) (ord : Order ((V × V) × β))
    (calls : List (V × V × β)) : ∀ el : EdgeList (V × V) β,
    addSeq (EdgeList.add rep endsKey ord) el calls =
      some ((addAll ord el calls).1, (addAll ord el calls).2.map fun r => if r.2 then some r.1 else none) := by
  subst hrep
  induction calls with
  | nil => intro el; rfl
  | cons c calls ih =>
    intro el
    simp only [addSeq, EdgeList.add, ih, addAll, List.map_cons]

/-- Edge lists, any kind of edge container: a program of any calls of `try_add_edge` and assignments to bundles
leaves the edge list exactly as if each edge had been added with the bundle last assigned to it, and the
edges returned are the same.  (The order of a hashed container must be decided by the ends of the edges.) -/
theorem edgeList_writes {ord : Order ((V × V) × β)}
    {k : Kind} (hb : k.hashed = true → ByKey (fun d : (V × V) × β => endsKey d.1) ord) (un : Bool) {ops : List (BOp V β)}
    {calls : List (V × V × β)} (ha : asAdded [] ops = some calls) (hl : k = .vec → calls.length ≤ 2 ^ 31) :
    runOps (EdgeList.add (twoRep V) endsKey ord) EdgeList.write ⟨un, Cont.empty k⟩ [] ops =
      some ((addAll ord ⟨un, Cont.empty k⟩ calls).1,
        (addAll ord ⟨un, Cont.empty k⟩ calls).2.map fun r => if r.2 then some r.1 else none) := by
  rw [← addSeq_edgeList (twoRep V) rfl]
  have hlen := asAdded_length ha
  simp only [List.length_nil, Nat.zero_add] at hlen
  refine (edgeList_commutes (twoRep V) endsKey hb calls.length).run (s := ⟨un, Cont.empty k⟩) ?_
    (calls := []) (by simp [hlen]) rfl ha
  exact ⟨Cont.WF.empty _ k, le_refl _, fun hr => hl (ra_vec hr), rfl⟩

theorem addSeq_adjC (rep : Rep Int R) (o : OrdersC Int R β) (junk : Int) (calls : List (Int × Int × β)) :
    ∀ g : AdjC Int R β, addSeq (fun (g : AdjC Int R β) c => g.tryAddEdge rep o junk c.1 c.2.1 c.2.2) g calls =
      g.tryAddAll rep o junk calls := by
  induction calls with
  | nil => intro g; rfl
  | cons c calls ih =>
    intro g
    simp only [addSeq, AdjC.tryAddAll, ih]
    rcases g.tryAddEdge rep o junk c.1 c.2.1 c.2.2 with _ | ⟨g1, a⟩
    · rfl
    · simp only
      rcases AdjC.tryAddAll rep o junk g1 calls with _ | ⟨_, _⟩ <;> rfl

/-- Adjacency lists with an edge container (a sequence), any direction: the same. -/
theorem adjC_writes (rep : Rep Int R) (o : OrdersC Int R β) (junk : Int) (dir : Dir) (hasOut : Bool) (k ke : Kind)
    (hke : ke.assoc = false) (n : Nat) {ops : List (BOp Int β)} {calls : List (Int × Int × β)}
    (ha : asAdded [] ops = some calls) (hl : ke = .vec → calls.length ≤ 2 ^ 31) :
    runOps (fun (g : AdjC Int R β) c => g.tryAddEdge rep o junk c.1 c.2.1 c.2.2) AdjC.write
      (AdjC.init dir hasOut k ke (firstVertices n)) [] ops =
      (AdjC.init dir hasOut k ke (firstVertices n)).tryAddAll rep o junk calls := by
  rw [← addSeq_adjC]
  have hlen := asAdded_length ha
  simp only [List.length_nil, Nat.zero_add] at hlen
  have hh : ke.hashed = true → ByKey (fun _ : R × β => (0 : Nat)) o.edge := by
    intro h; revert hke h; cases ke <;> simp [Kind.assoc, Kind.hashed]
  refine (adjC_commutes rep junk hh calls.length).run (s := AdjC.init dir hasOut k ke (firstVertices n)) ?_
    (calls := []) (by simp [hlen]) rfl ha
  refine ⟨⟨Cont.WF.empty _ ke, le_refl _, fun hr => hl (ra_vec hr), rfl⟩, ?_⟩
  show ke.unique = false
  revert hke; cases ke <;> simp [Kind.assoc, Kind.unique]

theorem addSeq_adjN (o : OrdersN Int β) (moved : β → β) (calls : List (Int × Int × β)) :
    ∀ g : AdjN Int β, addSeq (fun (g : AdjN Int β) c => g.tryAddEdge o moved c.1 c.2.1 c.2.2) g calls =
      g.tryAddAll o moved calls := by
  induction calls with
  | nil => intro g; rfl
  | cons c calls ih =>
    intro g
    simp only [addSeq, AdjN.tryAddAll, ih]
    rcases g.tryAddEdge o moved c.1 c.2.1 c.2.2 with _ | ⟨g1, a⟩
    · rfl
    · simp only
      rcases AdjN.tryAddAll o moved g1 calls with _ | ⟨_, _⟩ <;> rfl

/-- Adjacency lists without an edge container, directed or bidirectional: the same.  False of undirected ones:
`undirected_write_fails`. -/
theorem adjN_writes_partial {o : OrdersN Int β} {k : Kind}
    (hb : k.hashed = true → ∀ u, ByKey Prod.fst (o.out u)) (moved : β → β) {dir : Dir}
    (hd : dir ≠ .undirected) (n : Nat) {ops : List (BOp Int β)} {calls : List (Int × Int × β)}
    (ha : asAdded [] ops = some calls) (hl : k = .vec → calls.length ≤ 2 ^ 31) :
    runOps (fun (g : AdjN Int β) c => g.tryAddEdge o moved c.1 c.2.1 c.2.2) AdjN.write
      (AdjN.init dir k (firstVertices n)) [] ops =
      (AdjN.init dir k (firstVertices n)).tryAddAll o moved calls := by
  rw [← addSeq_adjN]
  have hlen := asAdded_length ha
  simp only [List.length_nil, Nat.zero_add] at hlen
  refine (adjN_commutes moved hb calls.length).run (s := AdjN.init dir k (firstVertices n)) ?_
    (calls := []) (by simp [hlen]) rfl ha
  exact ⟨hd, ⟨n, rfl⟩, fun u => ⟨Cont.WF.empty _ k, le_refl _, fun hr => hl (ra_vec hr), rfl⟩⟩

/-! ### What is read after a program -/

/-- Edge lists: the edges returned are those of the accepted calls, with their ends, and each has the bundle last
assigned to it (or given to `try_add_edge`). -/
theorem edgeList_writes_read {ord : Order ((V × V) × β)} {k : Kind}
    (hb : k.hashed = true → ByKey (fun d : (V × V) × β => endsKey d.1) ord) (un : Bool)
    {ops : List (BOp V β)} {calls : List (V × V × β)} (ha : asAdded [] ops = some calls)
    (hl : k = .vec → calls.length < 2 ^ 31) :
    ∃ el as, runOps (EdgeList.add (twoRep V) endsKey ord) EdgeList.write (⟨un, Cont.empty k⟩ : EdgeList (V × V) β)
        [] ops = some (el, as) ∧
      as.map Option.isSome = (accept k.unique un [] calls).2 ∧
      el.edgeCount = (accept k.unique un [] calls).2.count true ∧
      ∀ (i : Nat) c h, calls[i]? = some c → as[i]? = some (some h) →
        (h.1, h.2.1) = ends un c ∧ el.bundle h = some c.2.2 := by
  obtain ⟨h1, h2, -, h4, -⟩ := edgeList_history ord k un calls hl
  refine ⟨_, _, edgeList_writes hb un ha fun hk => (hl hk).le, ?_, h2, ?_⟩
  · rw [← h1, List.map_map]
    refine List.map_congr_left fun r _ => ?_
    simp only [Function.comp]
    cases r.2 <;> rfl
  · intro i c h hc hi
    rw [List.getElem?_map] at hi
    rcases hr : (addAll ord ⟨un, Cont.empty k⟩ calls).2[i]? with _ | ⟨a, ok⟩
    · rw [hr] at hi; simp at hi
    · rw [hr] at hi
      cases ok
      · simp at hi
      · obtain rfl : a = h := by simpa using hi
        obtain ⟨q1, b, q2, q3⟩ := h4 i c a true hc hr
        exact ⟨q1, by rw [EdgeList.bundle, q2, Option.map_some, q3 rfl]⟩

/-- Adjacency lists with an edge container, any direction: the edges returned are those of the accepted calls,
with their ends and the bundles last assigned to them; each out-edge and in-edge is one of them and has the
same bundle, from whichever end it is seen. -/
theorem adjC_writes_read {rep : Rep Int R} (o : OrdersC Int R β) (junk : Int) (dir : Dir)
    {hasOut : Bool} (hr : hasOut = false → GoodRep rep dir IsInt) {k ke : Kind} (hk : hasOut = false → k.assoc = false)
    (hke : ke.assoc = false) {n : Nat} (hn : n < 2 ^ 31) {ops : List (BOp Int β)}
    {calls : List (Int × Int × β)} (ha : asAdded [] ops = some calls) (hne : n ≠ 0 ∨ calls ≠ [])
    (hok : ∀ e ∈ calls, (0 ≤ e.1 ∧ e.1 < 2 ^ 31 - 1) ∧ 0 ≤ e.2.1 ∧ e.2.1 < 2 ^ 31 - 1)
    (hl : k = .vec ∨ ke = .vec → calls.length < 2 ^ 31) :
    ∃ g as hs, runOps (fun (g : AdjC Int R β) c => g.tryAddEdge rep o junk c.1 c.2.1 c.2.2) AdjC.write
        (AdjC.init dir hasOut k ke (firstVertices n)) [] ops = some (g, as) ∧
      hs = as.filterMap id ∧
      (hs.map fun h => (h.1, h.2.1, g.bundle h)) =
        ((accept k.unique dir.un [] calls).1.map fun c => (c.1, c.2.1, some c.2.2)) ∧
      (∀ h ∈ hs, ∃ l, g.outEdges rep h.1 = some l ∧ h ∈ l) ∧
      ∀ u l, g.outEdges rep u = some l ∨ dir ≠ .directed ∧ g.inEdges rep u = some l →
        ∀ e ∈ l, ∃ h ∈ hs, sameC e h = true ∧
          (h.1 = e.1 ∧ h.2.1 = e.2.1 ∨ dir = .undirected ∧ h.1 = e.2.1 ∧ h.2.1 = e.1) ∧
          g.bundle e = g.bundle h := by
  obtain ⟨g, as, hs, h1, h2, h3, -, h5, h6⟩ := edge_handles_edges o junk dir hr hk hke hn hne hok hl
  refine ⟨g, as, hs, ?_, h2, h3, h5, fun u l hu e he => ?_⟩
  · rw [adjC_writes rep o junk dir hasOut k ke hke n ha fun h => (hl (Or.inr h)).le, h1]
  · obtain ⟨h, q1, q2, q3, q4⟩ := h6 u l hu e he
    exact ⟨h, q1, (q2 h q1).mpr rfl, q3, q4⟩

/-- Without an edge container, directed or bidirectional: the same. -/
theorem adjN_writes_read_partial {o : OrdersN Int β} {k : Kind}
    (hb : k.hashed = true → ∀ u, ByKey Prod.fst (o.out u)) (moved : β → β) {dir : Dir}
    (hd : dir ≠ .undirected) (n : Nat) {ops : List (BOp Int β)} {calls : List (Int × Int × β)}
    (ha : asAdded [] ops = some calls)
    (hok : ∀ e ∈ calls, (0 ≤ e.1 ∧ e.1 < 2 ^ 31 - 1) ∧ 0 ≤ e.2.1 ∧ e.2.1 < 2 ^ 31 - 1)
    (hl : k = .vec → calls.length < 2 ^ 31) :
    ∃ g as hs, runOps (fun (g : AdjN Int β) c => g.tryAddEdge o moved c.1 c.2.1 c.2.2) AdjN.write
        (AdjN.init dir k (firstVertices n)) [] ops = some (g, as) ∧
      hs = as.filterMap id ∧
      (hs.map fun h => (h.1, h.2.1, g.bundle h)) =
        ((accept k.unique false [] calls).1.map fun c => (c.1, c.2.1, some c.2.2)) ∧
      (∀ h ∈ hs, ∃ l, g.outEdges h.1 = some l ∧ h ∈ l) ∧
      ∀ u l, g.outEdges u = some l ∨ dir = .bidirectional ∧ g.inEdges u = some l →
        ∀ e ∈ l, ∃ h ∈ hs, sameN e h = true ∧ h.1 = e.1 ∧ h.2.1 = e.2.1 ∧ g.bundle e = g.bundle h := by
  obtain ⟨g, as, hs, h1, h2, h3, -, h5, h6⟩ := edge_handles_partial o moved dir k n hok hl
  have hun : dir.un = false := by revert hd; cases dir <;> simp [Dir.un]
  refine ⟨g, as, hs, ?_, h2, by rw [h3, hun], h5, fun u l hu e he => ?_⟩
  · rw [adjN_writes_partial hb moved hd n ha fun h => (hl h).le, h1]
  · obtain ⟨h, q1, q2, q3, q4, q5⟩ := h6 hd u l hu e he
    exact ⟨h, q1, (q2 h q1).mpr rfl, q3, q4, q5⟩

/-- False of undirected graphs without an edge container: after an assignment through the edge returned, the same
edge seen from its second end still has the bundle it was added with. -/
theorem undirected_write_fails (o : OrdersN Int β) (moved : β → β) (k : Kind) (n : Nat)
    {calls : List (Int × Int × β)}
    (hok : ∀ e ∈ calls, (0 ≤ e.1 ∧ e.1 < 2 ^ 31 - 1) ∧ 0 ≤ e.2.1 ∧ e.2.1 < 2 ^ 31 - 1)
    (hl : k = .vec → calls.length < 2 ^ 31) :
    ∃ g as, (AdjN.init .undirected k (firstVertices n) : AdjN Int β).tryAddAll o moved calls = some (g, as) ∧
      ∀ h, some h ∈ as → h.1 ≠ h.2.1 → ∀ x, ∃ g' b l e, g.bundle h = some b ∧ g.write h x = some g' ∧
        g'.bundle h = some x ∧ g'.outEdges h.2.1 = some l ∧ e ∈ l ∧ e.2.1 = h.1 ∧
        g'.bundle e = some (moved b) := by
  obtain ⟨g, as, es, i1, i2, i3, i4, i5, i6, i7, i8, i9, i10, new, i11, i12⟩ :=
    addAllN_inv grows_grow o moved (NInv.init moved .undirected k (firstVertices_nodup n)) ⟨n, rfl⟩ hok
      (by simpa using hl)
  have hl' : k = .vec → es.length < 2 ^ 31 := fun hk => by
    have := hl hk; simp only [List.length_nil] at i8; omega
  rw [List.nil_append] at i11
  subst i11
  refine ⟨g, as, by rw [AdjN.tryAddAll_eq]; exact i1, fun h hh hne x => ?_⟩
  have hm : h ∈ as.filterMap id := List.mem_filterMap.mpr ⟨some h, hh, rfl⟩
  rw [i12] at hm
  obtain ⟨f, hf, rfl⟩ := List.mem_map.mp hm
  have hat := i2.ids f hf
  have hw := AdjN.write_spec g (f.1, f.2.1, f.2.2.2) x
  have hbu : g.bundle (f.1, f.2.1, f.2.2.2) = some f.2.2.1 := by
    simp only [AdjN.bundle, hat, Option.map_some]
  obtain ⟨g', hg'⟩ := Option.isSome_iff_exists.mp ((hw.1 (i2.closed f hf).1).trans (by rw [hbu]; rfl))
  obtain ⟨w1, w2, -, -, w5, -, -⟩ := hw.2 g' hg'
  obtain ⟨l, h1, h2, -⟩ := i2.outEdges hl' (i2.closed f hf).2
  have hun : g.dir.un = true := by rw [i4]; rfl
  have hmem : (f.1, moved f.2.2.1) ∈ outN moved g.dir.un es f.2.1 :=
    List.mem_filterMap.mpr ⟨f, hf, by rw [if_neg hne, if_pos ⟨hun, rfl⟩]⟩
  rw [← (i2.out f.2.1).perm.mem_iff] at hmem
  have hbs := outEdges_bundles h1 (i2.out f.2.1).wf (i2.fits hl' f.2.1)
  have : (f.1, some (moved f.2.2.1)) ∈ l.map fun e => (e.2.1, g.bundle e) := by
    rw [hbs]; exact List.mem_map.mpr ⟨_, hmem, rfl⟩
  obtain ⟨e, he, hee⟩ := List.mem_map.mp this
  rw [Prod.mk.injEq] at hee
  refine ⟨g', f.2.2.1, l, e, hbu, hg', w1, by rw [(w5 f.2.1).1]; exact h1, he, hee.1, ?_⟩
  rw [w2 e ?_, hee.2]
  rw [Bool.eq_false_iff, ne_eq, sameN_iff]
  rintro ⟨e1, -⟩
  exact hne (e1.symm.trans (h2 e he))

/-! ### Vertices -/

/-- Assigning to a vertex that exists changes its value and no other, neither the number of vertices nor which
there are; if the container is a sequence, or what it compares of the value stays the same, the container is
as it should be afterwards (different ids, no equal values in a set, in order if it sorts). -/
theorem writeVertex_spec (key : α → κ) (vs : Cont α) (v : Int) (x : α) :
    (writeVertex vs v x).isSome = (vs.at v).isSome ∧
    ∀ vs', writeVertex vs v x = some vs' →
      vs'.at v = some x ∧ (∀ u, u ≠ v → vs'.at u = vs.at u) ∧ vs'.ids = vs.ids ∧
      vs'.items.length = vs.items.length ∧
      (vs.WF key → (vs.kind.assoc = false ∨ (vs.at v).map key = some (key x)) → vs'.WF key) := by
  unfold writeVertex
  rcases ha : vs.at v with _ | a
  · exact ⟨rfl, fun _ h => by simp at h⟩
  · refine ⟨rfl, fun vs' hw => ?_⟩
    obtain rfl := Option.some.inj hw
    obtain ⟨h1, h2, h3, -⟩ := modify_items vs v fun _ => x
    refine ⟨by rw [at_modify, if_pos rfl, ha]; rfl, fun u hu => by rw [at_modify, if_neg hu], h3, h2, ?_⟩
    intro hwf hx
    have hnext : (vs.modify v fun _ => x).next = vs.next := rfl
    have hlt : ∀ p ∈ (vs.modify v fun _ => x).items, p.1 < vs.next := by
      intro p hp
      have : p.1 ∈ (vs.modify v fun _ => x).items.map Prod.fst := List.mem_map.mpr ⟨p, hp, rfl⟩
      rw [h1] at this
      obtain ⟨q, hq, hqe⟩ := List.mem_map.mp this
      rw [← hqe]; exact hwf.lt q hq
    rcases hx with hx | hx
    · have hk : (vs.modify v fun _ => x).kind = vs.kind := rfl
      refine ⟨h1 ▸ hwf.nodup, hlt, fun hu => ?_, fun hu => ?_⟩ <;>
      · rw [hk] at hu; revert hx hu; cases vs.kind <;> simp [Kind.assoc, Kind.unique, Kind.sorted]
    · have hkx : key a = key x := by simpa using hx
      have hkeys : (vs.modify v fun _ => x).values.map key = vs.values.map key := by
        simp only [Cont.values, List.map_map]
        unfold Cont.at at ha
        unfold Cont.modify
        cases hr : vs.kind.ra
        · simp only [hr, Bool.false_eq_true, if_false] at ha ⊢
          rw [List.map_map]
          refine List.map_congr_left fun p hp => ?_
          simp only [Function.comp]
          split
          · rename_i hpv
            obtain ⟨q, hq, rfl⟩ := Option.map_eq_some_iff.mp ha
            have hqv : (q.1 : Int) = v := by simpa using List.find?_some hq
            have : p = q := by
              have hn := hwf.nodup
              exact List.inj_on_of_nodup_map hn hp (List.mem_of_find?_eq_some hq) (by omega)
            rw [this]; exact hkx.symm
          · rfl
        · simp only [hr, if_true] at ha ⊢
          split at ha
          · rename_i h0
            rw [if_pos h0]
            refine List.ext_getElem? fun i => ?_
            rw [List.getElem?_map, List.getElem?_map, List.getElem?_modify]
            rw [Cont.values, List.getElem?_map] at ha
            by_cases hi : v.toNat = i
            · subst hi
              obtain ⟨q, hq, rfl⟩ := Option.map_eq_some_iff.mp ha
              rw [hq]
              simp [hkx]
            · simp [hi]
          · simp at ha
      have hp : ∀ (r : κ → κ → Prop), (vs.values.Pairwise fun a b => r (key a) (key b)) →
          (vs.modify v fun _ => x).values.Pairwise fun a b => r (key a) (key b) := by
        intro r h
        rw [← List.pairwise_map] at h ⊢
        rw [hkeys]; exact h
      exact ⟨h1 ▸ hwf.nodup, hlt, fun hu => hp _ (hwf.uniq hu), fun hu => hp _ (hwf.sorted hu)⟩

/-- In a set of vertices nothing prevents assigning the value of another vertex: then two vertices have equal
values, which the set does not allow. -/
theorem writeVertex_fails (key : α → κ) {vs : Cont α} (hk : vs.kind.unique = true) {u v : Int} (huv : u ≠ v)
    {a b x : α} (hu : vs.at u = some a) (hv : vs.at v = some b) (hx : key x = key a) :
    ∃ vs', writeVertex vs v x = some vs' ∧ vs'.at u = some a ∧ vs'.at v = some x ∧ ¬ vs'.WF key := by
  obtain ⟨h1, h2⟩ := writeVertex_spec key vs v x
  rw [hv] at h1
  obtain ⟨vs', hw⟩ := Option.isSome_iff_exists.mp h1
  obtain ⟨w1, w2, -⟩ := h2 vs' hw
  have hu' : vs'.at u = some a := by rw [w2 u huv, hu]
  refine ⟨vs', hw, hu', w1, fun hwf => ?_⟩
  have hk' : vs'.kind = vs.kind := by
    unfold writeVertex at hw; rw [hv] at hw
    obtain rfl := Option.some.inj hw
    rfl
  have hra : vs'.kind.ra = false := by rw [hk']; revert hk; cases vs.kind <;> simp [Kind.unique, Kind.ra]
  have hun := hwf.uniq (by rw [hk']; exact hk)
  rw [Cont.values, List.pairwise_map] at hun
  simp only [Cont.at, hra, Bool.false_eq_true, if_false] at hu' w1
  obtain ⟨p, hp, hpa⟩ := Option.map_eq_some_iff.mp hu'
  obtain ⟨q, hq, hqx⟩ := Option.map_eq_some_iff.mp w1
  have hpu : (p.1 : Int) = u := by simpa using List.find?_some hp
  have hqv : (q.1 : Int) = v := by simpa using List.find?_some hq
  haveI : Std.Symm (fun p q : Nat × α => key p.2 ≠ key q.2) := ⟨fun _ _ h => h.symm⟩
  refine hun.forall (List.mem_of_find?_eq_some hp) (List.mem_of_find?_eq_some hq) (fun h => ?_) ?_
  · subst h; exact huv (hpu.symm.trans hqv)
  · rw [hpa, hqx, hx]

/-! ### Examples -/

set_option synthInstance.maxHeartbeats 400000
set_option synthInstance.maxSize 1000

/-- A program that assigns twice to the first edge and once to one that was refused. -/
def exOps : List (BOp Int String) :=
  [.add 0 1 "a", .add 1 2 "b", .write 0 "c", .add 0 1 "d", .write 2 "e", .write 0 "f", .add 2 0 "g"]

example : asAdded [] exOps = some [(0, 1, "f"), (1, 2, "b"), (0, 1, "e"), (2, 0, "g")] := by decide +kernel

/-- In a set of out-edges the second edge from `0` to `1` is refused. -/
example : (runOps (fun (g : AdjN Int String) c => g.tryAddEdge plainN (fun s => s) c.1 c.2.1 c.2.2) AdjN.write
    (AdjN.init .bidirectional .set (firstVertices 0)) [] exOps).map
      (fun r => (r.2.map Option.isSome, (r.2.filterMap id).map r.1.bundle, r.1.inEdges 1)) =
    some ([true, true, false, true], [some "f", some "b", some "g"], some [(0, 1, 0)]) := by
  decide +kernel

/-- With an edge container both ends of an undirected edge see the assignment. -/
example : (runOps (fun (g : AdjC Int (Int × Int) String) c => g.tryAddEdge (twoRep Int) plainC 77 c.1 c.2.1 c.2.2)
    AdjC.write (AdjC.init .undirected true .set .vec (firstVertices 0)) [] exOps).map
      (fun r => (r.1.outEdges (twoRep Int) 1, r.1.bundle ((1, 0, 0) : EdgeN Int))) =
    some (some [(1, 0, 0), (1, 2, 1)], some "f") := by
  decide +kernel

/-- Without one they do not. -/
example : (((AdjN.init .undirected .vec (firstVertices 0)).tryAddAll plainN (fun s => s) [(0, 1, "a")]).bind fun r =>
      (r.1.write (0, 1, 0) "x").map fun g => (g.bundle (0, 1, 0), g.outEdges 1, g.bundle (1, 0, 0))) =
    some (some "x", some [(1, 0, 0)], some "a") := by
  decide +kernel

/-- Orders that depend on the keys only, such as the reverse of that of insertion. -/
example : ∃ ord : Order ((Int × Int) × String), ByKey (fun d => endsKey d.1) ord ∧
    ord.f 0 [(0, ((0, 1), "a")), (1, ((1, 2), "b"))] =
    [(1, ((1, 2), "b")), (0, ((0, 1), "a"))] :=
  ⟨⟨fun _ l => l.reverse, fun _ l => l.reverse_perm⟩, fun _ l φ _ => by rw [List.map_reverse], rfl⟩

/-- A set of vertices `3`, `5` in which the second is assigned `3`. -/
example : (writeVertex (⟨.set, [(0, 3), (1, 5)], 2⟩ : Cont Int) 1 3).map (fun c => (c.at 0, c.at 1, c.ids)) =
    some (some 3, some 3, some [0, 1]) := by decide +kernel

end Actl.Storage
