import Verif.Model.MixedGraph
import Verif.Spec.MixedGraph
import Verif.Props.VertexEdgeList
import Verif.Props.Adjacency

/-! Adjacency lists with their vertex containers: what holds after any insertions. -/

namespace Actl.Storage

open Actl.Ids

variable {α β κ ι V : Type}

/-! ### The specification, call by call -/

theorem accept_snoc [LinearOrder V] (uq un : Bool) (e : V × V × ι) (calls : List (V × V × ι)) : ∀ st,
    accept uq un st (calls ++ [e]) =
      if uq = true ∧ ∃ d ∈ (accept uq un st calls).1, ends un d = ends un e then
        ((accept uq un st calls).1, (accept uq un st calls).2 ++ [false])
      else ((accept uq un st calls).1 ++ [e], (accept uq un st calls).2 ++ [true]) := by
  induction calls with
  | nil =>
    intro st
    rw [List.nil_append]
    by_cases h : uq = true ∧ ∃ d, d ∈ st ∧ ends un d = ends un e
    · rw [if_pos (c := uq = true ∧ ∃ d ∈ (accept uq un st []).1, ends un d = ends un e) h]
      simp only [accept, if_pos h, List.nil_append]
    · rw [if_neg (c := uq = true ∧ ∃ d ∈ (accept uq un st []).1, ends un d = ends un e) h]
      simp only [accept, if_neg h, List.nil_append]
  | cons c calls ih =>
    intro st
    rw [List.cons_append]
    simp only [accept]
    by_cases h : uq = true ∧ ∃ d ∈ st, ends un d = ends un c
    · rw [if_pos h, if_pos h, ih]
      dsimp only
      split <;> simp
    · rw [if_neg h, if_neg h, ih]
      dsimp only
      split <;> simp

theorem accept_length [LinearOrder V] (uq un : Bool) (calls : List (V × V × ι)) : ∀ st,
    (accept uq un st calls).1.length = st.length + (accept uq un st calls).2.count true := by
  induction calls with
  | nil => intro st; simp [accept]
  | cons e calls ih =>
    intro st
    simp only [accept]
    split
    · simp [ih]
    · simp [ih]; omega

theorem vertexCalls_append (l m : List (Insert α β × Got)) :
    vertexCalls (l ++ m) = vertexCalls l ++ vertexCalls m := by
  induction l with
  | nil => rfl
  | cons c l ih =>
    obtain ⟨_ | _, _ | _⟩ := c <;> simp [vertexCalls, ih]

theorem edgeCalls_append (l m : List (Insert α β × Got)) : edgeCalls (l ++ m) = edgeCalls l ++ edgeCalls m := by
  induction l with
  | nil => rfl
  | cons c l ih =>
    obtain ⟨_ | _, _ | _⟩ := c <;> simp [edgeCalls, ih]

theorem numbered_append (l m : List (Insert α β × Got)) : ∀ n, numbered n (l ++ m) = numbered (numbered n l) m := by
  induction l with
  | nil => intro n; rfl
  | cons c l ih =>
    intro n
    obtain ⟨_ | _, _⟩ := c <;> simp [numbered, ih]

theorem firstOfKind_snoc [DecidableEq κ] (uq : Bool) (x : κ) (xs : List κ) : ∀ seen,
    firstOfKind uq seen (xs ++ [x]) = firstOfKind uq seen xs ++ [!(uq && decide (x ∈ seen ++ xs))] := by
  induction xs with
  | nil => intro seen; simp [firstOfKind]
  | cons y xs ih => intro seen; simp [firstOfKind, ih]

/-! ### Growing -/

variable [LinearOrder κ] {key : α → κ}

theorem ra_iff {k : Kind} : k.ra = true ↔ k = .vec := by cases k <;> simp [Kind.ra]

theorem isSome_at_vec {c : Cont α} (hk : c.kind.ra = true) {u : Int} :
    (c.at u).isSome = true ↔ 0 ≤ u ∧ u < c.items.length := by
  rw [Option.isSome_iff_exists]
  constructor
  · rintro ⟨x, hx⟩
    obtain ⟨h0, h1⟩ := (at_vec hk).mp hx
    have := (List.getElem?_eq_some_iff.mp h1).1
    simp only [Cont.values, List.length_map] at this
    omega
  · rintro ⟨h0, h1⟩
    have : u.toNat < c.values.length := by simp only [Cont.values, List.length_map]; omega
    exact ⟨c.values[u.toNat], (at_vec hk).mpr ⟨h0, List.getElem?_eq_getElem this⟩⟩

/-- What the start of `try_add_edge` does to the vertices. -/
theorem growTo_spec (dflt : α) {g : Mixed α β} (hw : g.vs.WF key) (hf : g.vs.Fits) {u v : Int}
    (hu : if g.vs.kind = .vec then 0 ≤ u ∧ u < 2 ^ 31 - 1 else (g.vs.at u).isSome = true)
    (hv : if g.vs.kind = .vec then 0 ≤ v ∧ v < 2 ^ 31 - 1 else (g.vs.at v).isSome = true) :
    ∃ c, g.growTo dflt u v = some { g with vs := c } ∧ c.WF key ∧ c.Fits ∧ c.kind = g.vs.kind ∧
      (∀ w y, g.vs.at w = some y → c.at w = some y) ∧
      (∀ w y, c.at w = some y → g.vs.at w = some y ∨ (c.kind = .vec ∧ y = dflt ∧ g.vs.at w = none)) ∧
      (c.at u).isSome = true ∧ (c.at v).isSome = true ∧
      (c.kind = .vec → c.items.length = max g.vs.items.length (max u v + 1).toNat) ∧
      (c.kind ≠ .vec → c = g.vs) := by
  by_cases hk : g.vs.kind = .vec
  · rw [if_pos hk] at hu hv
    have hra := ra_iff.mpr hk
    by_cases hn : max u v ≥ g.vertexCount
    · have hlen : g.vs.items.length ≤ (max u v + 1).toNat := by
        unfold Mixed.vertexCount at hn
        omega
      have h1 := resize_length g.vs dflt _ hlen
      have hra' : (resizeVec g.vs dflt (max u v + 1).toNat).kind.ra = true := hra
      have hval := resize_values g.vs dflt _ hlen
      refine ⟨resizeVec g.vs dflt (max u v + 1).toNat, ?_, resize_wf _ _ _ hlen hk hw, ?_, rfl, ?_, ?_, ?_, ?_, ?_, ?_⟩
      · unfold Mixed.growTo
        rw [if_pos hra]
        dsimp only
        rw [if_pos hn, if_pos (by omega)]
      · intro _
        omega
      · intro w y hy
        obtain ⟨a, b⟩ := (at_vec hra).mp hy
        refine (at_vec hra').mpr ⟨a, ?_⟩
        rw [hval, List.getElem?_append_left (List.getElem?_eq_some_iff.mp b).1]
        exact b
      · intro w y hy
        obtain ⟨a, b⟩ := (at_vec hra').mp hy
        rw [hval, List.getElem?_append] at b
        split at b
        · exact Or.inl ((at_vec hra).mpr ⟨a, b⟩)
        · rename_i hnl
          refine Or.inr ⟨hk, ?_, ?_⟩
          · have := List.mem_of_getElem? b
            exact (List.mem_replicate.mp this).2
          · rcases he : g.vs.at w with _ | z
            · rfl
            · exact absurd (List.getElem?_eq_some_iff.mp ((at_vec hra).mp he).2).1 hnl
      · rw [isSome_at_vec hra', h1]
        omega
      · rw [isSome_at_vec hra', h1]
        omega
      · intro _
        rw [h1]
        omega
      · intro h
        exact absurd hk h
    · have hn' : max u v < g.vs.items.length := by
        unfold Mixed.vertexCount at hn
        omega
      refine ⟨g.vs, ?_, hw, hf, rfl, fun _ _ h => h, fun _ _ h => Or.inl h, ?_, ?_, ?_, fun _ => rfl⟩
      · unfold Mixed.growTo
        rw [if_pos hra]
        dsimp only
        rw [if_neg hn]
      · rw [isSome_at_vec hra]
        omega
      · rw [isSome_at_vec hra]
        omega
      · intro _
        omega
  · rw [if_neg hk] at hu hv
    refine ⟨g.vs, ?_, hw, hf, rfl, fun _ _ h => h, fun _ _ h => Or.inl h, hu, hv, fun h => absurd h hk, fun _ => rfl⟩
    unfold Mixed.growTo
    rw [if_neg (fun h => hk (ra_iff.mp h))]

/-- A list appends: the ids in order. -/
theorem ids_list (ord : Order α) {c : Cont α} (hw : c.WF key) (hk : c.kind = .list) {l : List Int} (hl : c.ids = some l)
    (x : α) : (c.idEmplace key ord x).1.ids = some (l ++ [(c.idEmplace key ord x).2.1]) := by
  have hn : ¬(c.kind.unique = true ∧ ∃ y ∈ c.values, key y = key x) := by rw [hk]; simp [Kind.unique]
  have hra : c.kind.ra = false := by rw [hk]; rfl
  have ha : c.kind.assoc = false := by rw [hk]; rfl
  simp only [Cont.idEmplace, emplace_new ord hn]
  rw [vec_inserted key ord x ha, vec_findIdx hw.lt]
  simp only [Cont.ids, hra, Bool.false_eq_true, if_false, Option.some.injEq] at hl
  simp [Cont.ids, Cont.iteratorToId, hra, ← hl]

/-- Two ids of a unique container designate elements with the same key just if they are the same. -/
theorem at_unique {c : Cont α} (hw : c.WF key) (hk : c.kind.unique = true) {u v : Int} {x y : α}
    (hx : c.at u = some x) (hy : c.at v = some y) : u = v ↔ key x = key y := by
  have hra : c.kind.ra = false := by revert hk; cases c.kind <;> simp [Kind.unique, Kind.ra]
  constructor
  · rintro rfl
    rw [Option.some.inj (hx.symm.trans hy)]
  · intro h
    obtain ⟨a, rfl, ha⟩ := (at_node hw.nodup hra).mp hx
    obtain ⟨b, rfl, hb⟩ := (at_node hw.nodup hra).mp hy
    have hp := hw.uniq hk
    unfold Cont.values at hp
    rw [List.pairwise_map] at hp
    have hnd : (c.items.map fun p => key p.2).Nodup := List.pairwise_map.mpr hp
    rw [(Prod.mk.inj (List.inj_on_of_nodup_map hnd ha hb h)).1]

/-! ### The invariant -/

structure MInv (key : α → κ) (dflt : α) (moved : β → β) (dir : Dir) (k kv : Kind) (g : Mixed α β)
    (log : List (Insert α β × Got)) : Prop where
  wf : g.vs.WF key
  kind : g.vs.kind = kv
  fits : g.vs.Fits
  dirEq : g.adj.dir = dir
  len : k = .vec → (edgeCalls log).length < 2 ^ 31
  edges : ∃ es l, g.vs.ids = some l ∧ NInv moved k { g.adj with vertices := l } es ∧
    es.map strip = (accept k.unique dir.un [] ((edgeCalls log).map Prod.fst)).1 ∧
    ((edgeCalls log).map fun c => c.2.isSome) = (accept k.unique dir.un [] ((edgeCalls log).map Prod.fst)).2 ∧
    (edgeCalls log).filterMap Prod.snd = es.map (fun e => (e.1, e.2.1, e.2.2.2)) ∧
    es.length ≤ (edgeCalls log).length ∧
    ∀ c ∈ edgeCalls log, c.1.1 ∈ l ∧ c.1.2.1 ∈ l
  logged : ∀ c ∈ vertexCalls log, ∃ y, g.vs.at c.2.1 = some y ∧ key y = key c.1 ∧ (c.2.2 = true → y = c.1)
  new : (vertexCalls log).map (fun c => c.2.2) = firstOfKind kv.unique [] ((vertexCalls log).map fun c => key c.1)
  nodup : (((vertexCalls log).filter fun c => c.2.2).map fun c => c.2.1).Nodup
  from_ : ∀ u y, g.vs.at u = some y → (∃ c ∈ vertexCalls log, c.2.1 = u ∧ c.2.2 = true ∧ c.1 = y) ∨
    (kv = .vec ∧ y = dflt ∧ ∀ c ∈ vertexCalls log, c.2.1 ≠ u)
  count : kv = .vec → g.vs.items.length = numbered 0 log
  inOrder : kv = .list → g.vs.ids = some (((vertexCalls log).filter fun c => c.2.2).map fun c => c.2.1)

variable {dflt : α} {ordV : Order α} {o : OrdersN Int β} {moved : β → β} {dir : Dir} {k kv : Kind} {g : Mixed α β}
  {log : List (Insert α β × Got)}

theorem MInv.init : MInv key dflt moved dir k kv (Mixed.init dir k kv : Mixed α β) [] := by
  have hat : ∀ u, (Cont.empty kv : Cont α).at u = none := by
    intro u
    unfold Cont.at Cont.empty Cont.values
    split
    · split <;> simp
    · simp
  refine ⟨Cont.WF.empty key kv, rfl, fun _ => Nat.two_pow_pos 31, rfl, fun _ => Nat.two_pow_pos 31, ⟨[], [], ?_, ?_, rfl, rfl, rfl,
    le_refl _, by simp [edgeCalls]⟩, by simp [vertexCalls], rfl, by simp [vertexCalls], ?_, fun _ => rfl, ?_⟩
  · have h0 : toInt 0 = 0 := toInt_of_lt (Nat.two_pow_pos 31)
    cases kv <;> simp [Cont.ids, Mixed.init, Cont.empty, Kind.ra, Cont.idEnd, h0]
  · exact NInv.init moved dir k List.nodup_nil
  · intro u y h
    have := hat u
    rw [show (Mixed.init dir k kv : Mixed α β).vs = Cont.empty kv from rfl, this] at h
    cases h
  · rintro rfl
    rfl

theorem MInv.vertex (h : MInv key dflt moved dir k kv g log) (x : α) (hl : kv = .vec → numbered 0 log < 2 ^ 31 - 1) :
    MInv key dflt moved dir k kv (g.tryAddVertex key ordV x).1
      (log ++ [(.vertex x, .vertex (g.tryAddVertex key ordV x).2.1 (g.tryAddVertex key ordV x).2.2)]) := by
  obtain ⟨h1, h2, h3, h4, h5, h6⟩ := idEmplace_spec ordV h.wf h.fits x
  have hvs : (g.tryAddVertex key ordV x).1.vs = (g.vs.idEmplace key ordV x).1 := rfl
  have hadj : (g.tryAddVertex key ordV x).1.adj = g.adj := rfl
  have hid : (g.tryAddVertex key ordV x).2 = (g.vs.idEmplace key ordV x).2 := rfl
  have hlist : kv = .list → ∀ l, g.vs.ids = some l → (g.vs.idEmplace key ordV x).1.ids =
      some (l ++ [(g.vs.idEmplace key ordV x).2.1]) := fun hk l hl => ids_list ordV h.wf (h.kind.trans hk) hl x
  generalize g.tryAddVertex key ordV x = r at *
  obtain ⟨g', u, isNew⟩ := r
  dsimp only at hvs hadj hid ⊢
  rw [← hvs, ← hid] at h2 h3 hlist
  rw [← hid] at h1
  rw [← hvs] at h4 h5 h6
  dsimp only at h1 h2 h3
  have hlen : kv = .vec → isNew = true ∧ g'.vs.items.length = g.vs.items.length + 1 := by
    intro hk
    have hn : isNew = true := by
      cases hb : isNew
      · have := (h1.mp hb).1
        rw [h.kind, hk] at this
        cases this
      · rfl
    have := (h3 hn).2.2.1.length_eq
    simp only [Cont.values, List.length_map, List.length_cons] at this
    exact ⟨hn, this⟩
  have hfits : g'.vs.Fits := by
    intro hr
    rw [h6, h.kind, ra_iff] at hr
    have := hl hr
    have := h.count hr
    have := (hlen hr).2
    omega
  have hv : vertexCalls (log ++ [(.vertex x, .vertex u isNew)]) = vertexCalls log ++ [(x, u, isNew)] := by
    rw [vertexCalls_append]; rfl
  have he : edgeCalls (log ++ [(.vertex x, .vertex u isNew)]) = edgeCalls log := by
    rw [edgeCalls_append]; simp [edgeCalls]
  -- the keys in a unique container are those of the calls
  have hkeys : kv.unique = true → ((∃ y ∈ g.vs.values, key y = key x) ↔ key x ∈ (vertexCalls log).map fun c => key c.1) := by
    intro hk
    rw [List.mem_map]
    constructor
    · rintro ⟨y, hy, e⟩
      obtain ⟨w, hw⟩ := (values_mem_iff h.wf.nodup).mp hy
      rcases h.from_ w y hw with ⟨c, hc, -, -, hc2⟩ | ⟨hc, -⟩
      · exact ⟨c, hc, by rw [hc2, e]⟩
      · rw [hc] at hk; cases hk
    · rintro ⟨c, hc, e⟩
      obtain ⟨y, hy, e2, -⟩ := h.logged c hc
      exact ⟨y, (values_mem_iff h.wf.nodup).mpr ⟨_, hy⟩, e2.trans e⟩
  refine ⟨h5, h6.trans h.kind, hfits, by rw [hadj]; exact h.dirEq, by rw [he]; exact h.len, ?_, ?_, ?_, ?_, ?_, ?_, ?_⟩
  · obtain ⟨es, l, a1, a2, a3, a4, a5, a6, a7⟩ := h.edges
    obtain ⟨l0, b0, -, -, b3, -⟩ := ids_spec h.wf h.fits
    obtain rfl := Option.some.inj (a1.symm.trans b0)
    obtain ⟨l', c0, c1, -, c3, -⟩ := ids_spec h5 hfits
    have hsub : ∀ w ∈ l, w ∈ l' := by
      intro w hw
      rw [c3]
      obtain ⟨y, hy⟩ := Option.isSome_iff_exists.mp ((b3 w).mp hw)
      rw [h4 w y hy]; rfl
    refine ⟨es, l', c0, ?_, ?_⟩
    · rw [hadj]
      exact a2.grow c1 hsub
    · rw [he]
      exact ⟨a3, a4, a5, a6, fun c hc => ⟨hsub _ (a7 c hc).1, hsub _ (a7 c hc).2⟩⟩
  · rw [hv]
    intro c hc
    rcases List.mem_append.mp hc with hc | hc
    · obtain ⟨y, hy, e⟩ := h.logged c hc
      exact ⟨y, h4 _ _ hy, e⟩
    · rw [List.mem_singleton.mp hc]
      dsimp only
      cases hb : isNew
      · obtain ⟨-, y, hy, e⟩ := h2 hb
        exact ⟨y, h4 _ _ hy, e, fun h => by cases h⟩
      · exact ⟨x, (h3 hb).1, rfl, fun _ => rfl⟩
  · rw [hv, List.map_append, List.map_append, h.new, List.map_singleton, List.map_singleton, firstOfKind_snoc]
    congr 2
    dsimp only
    rw [List.nil_append]
    cases hk : kv.unique
    · cases hb : isNew
      · have := (h1.mp hb).1
        rw [h.kind, hk] at this
        cases this
      · rfl
    · have := h1
      rw [h.kind, hk, hkeys hk] at this
      cases hb : isNew
      · simpa using (this.mp hb).2
      · have hn : key x ∉ (vertexCalls log).map fun c => key c.1 := fun hc => by
          rw [this.mpr ⟨rfl, hc⟩] at hb
          cases hb
        simpa using hn
  · rw [hv, List.filter_append, List.map_append]
    cases hb : isNew
    · simpa using h.nodup
    · simp only [List.filter_cons, if_true, List.filter_nil, List.map_singleton]
      rw [List.nodup_append]
      refine ⟨h.nodup, by simp, ?_⟩
      intro a ha b hb' hab
      rw [List.mem_singleton] at hb'
      obtain ⟨c, hc, rfl⟩ := List.mem_map.mp ha
      obtain ⟨y, hy, -⟩ := h.logged c (List.mem_filter.mp hc).1
      rw [hab, hb', (h3 hb).2.1] at hy
      cases hy
  · rw [hv]
    intro w y hw
    have hold : g.vs.at w = some y → (∃ c ∈ vertexCalls log ++ [(x, u, isNew)], c.2.1 = w ∧ c.2.2 = true ∧ c.1 = y) ∨
        (kv = .vec ∧ y = dflt ∧ ∀ c ∈ vertexCalls log ++ [(x, u, isNew)], c.2.1 ≠ w) := by
      intro hw0
      rcases h.from_ w y hw0 with ⟨c, hc, e⟩ | ⟨hk, e, hc⟩
      · exact Or.inl ⟨c, List.mem_append_left _ hc, e⟩
      · refine Or.inr ⟨hk, e, ?_⟩
        intro c hc'
        rcases List.mem_append.mp hc' with hc' | hc'
        · exact hc c hc'
        · rw [List.mem_singleton.mp hc']
          rintro rfl
          rw [(h3 (hlen hk).1).2.1] at hw0
          cases hw0
    cases hb : isNew
    · rw [(h2 hb).1] at hw
      rw [hb] at hold
      exact hold hw
    · rw [hb] at hold
      obtain ⟨h7, h8, h9, -⟩ := h3 hb
      by_cases hwu : w = u
      · refine Or.inl ⟨(x, u, true), by simp, hwu.symm, rfl, ?_⟩
        rw [hwu, h7] at hw
        exact Option.some.inj hw
      · cases hw0 : g.vs.at w with
        | some z =>
          have := h4 w z hw0
          rw [hw] at this
          rw [Option.some.inj this] at hold ⊢
          exact hold hw0
        | none =>
          exfalso
          obtain ⟨l, b0, b1, b2, b3, -⟩ := ids_spec h.wf h.fits
          obtain ⟨l', c0, c1, c2, c3, -⟩ := ids_spec h5 hfits
          have e1 := congrArg List.length b2
          have e2 := congrArg List.length c2
          have e3 := h9.length_eq
          simp only [List.length_map, List.length_cons] at e1 e2 e3
          have hnd : (w :: u :: l).Nodup := by
            rw [List.nodup_cons, List.nodup_cons, b3]
            refine ⟨?_, by rw [h8]; simp, b1⟩
            rw [List.mem_cons, b3, hw0]
            simp [hwu]
          have hsub : (w :: u :: l).Subperm l' := List.subperm_of_subset hnd (by
            intro z hz
            rw [c3]
            rcases List.mem_cons.mp hz with rfl | hz
            · rw [hw]; rfl
            · rcases List.mem_cons.mp hz with rfl | hz
              · rw [h7]; rfl
              · obtain ⟨t, ht⟩ := Option.isSome_iff_exists.mp ((b3 z).mp hz)
                rw [h4 z t ht]; rfl)
          have := hsub.length_le
          simp only [List.length_cons] at this
          omega
  · intro hk
    rw [numbered_append, ← h.count hk, (hlen hk).2]; rfl
  · intro hk
    rw [hlist hk _ (h.inOrder hk), hv, List.filter_append, List.map_append]
    have hn : isNew = true := by
      cases hb : isNew
      · have := (h1.mp hb).1
        rw [h.kind, hk] at this
        cases this
      · rfl
    rw [hn]; rfl

theorem MInv.edge (h : MInv key dflt moved dir k kv g log) (o : OrdersN Int β) {u v : Int} {b : β}
    (hl : Legal k kv log (.edge u v b)) :
    ∃ g' e, g.tryAddEdge dflt o moved u v b = some (g', e) ∧
      MInv key dflt moved dir k kv g' (log ++ [(.edge u v b, .edge e)]) ∧ g'.vs.kind = g.vs.kind := by
  obtain ⟨hl0, hl1, hl2⟩ := hl
  have hdir := h.dirEq
  subst hdir
  have hend : ∀ w : Int, (if kv = .vec then 0 ≤ w ∧ w < 2 ^ 31 - 1 else ∃ c ∈ vertexCalls log, c.2.1 = w) →
      if g.vs.kind = .vec then 0 ≤ w ∧ w < 2 ^ 31 - 1 else (g.vs.at w).isSome = true := by
    intro w hw
    rw [h.kind]
    by_cases hk : kv = .vec
    · rw [if_pos hk] at hw ⊢
      exact hw
    · rw [if_neg hk] at hw ⊢
      obtain ⟨c, hc, rfl⟩ := hw
      obtain ⟨y, hy, -⟩ := h.logged c hc
      rw [hy]; rfl
  obtain ⟨c, p1, p2, p3, p4, p5, p6, p7, p8, p9, p10⟩ := growTo_spec dflt h.wf h.fits (hend u hl1) (hend v hl2)
  obtain ⟨es, l, a1, a2, a3, a4, a5, a6, a7⟩ := h.edges
  obtain ⟨l0, b0, -, -, b3, -⟩ := ids_spec h.wf h.fits
  obtain rfl := Option.some.inj (a1.symm.trans b0)
  obtain ⟨l', c0, c1, -, c3, -⟩ := ids_spec p2 p3
  have hsub : ∀ w ∈ l, w ∈ l' := by
    intro w hw
    rw [c3]
    obtain ⟨y, hy⟩ := Option.isSome_iff_exists.mp ((b3 w).mp hw)
    rw [p5 w y hy]; rfl
  have hg := a2.grow c1 hsub
  have hlen : k = .vec → es.length < 2 ^ 31 := fun hk => by
    have := hl0 hk
    omega
  have hs := hg.step hlen o (u := u) (v := v) ((c3 u).mpr p7) ((c3 v).mpr p8) b
  have hsee : ({ g with vs := c } : Mixed α β).see = some { g.adj with vertices := l' } := by
    simp only [Mixed.see, c0, Option.map_some]
  -- the parts about vertices
  have hmk : ∀ (adj : AdjN Int β) (e : Option (EdgeN Int)), adj.dir = g.adj.dir →
      (∃ es, NInv moved k { adj with vertices := l' } es ∧
        es.map strip = (accept k.unique g.adj.dir.un [] ((edgeCalls log).map Prod.fst ++ [(u, v, b)])).1 ∧
        ((edgeCalls log).map fun c => c.2.isSome) ++ [e.isSome] =
          (accept k.unique g.adj.dir.un [] ((edgeCalls log).map Prod.fst ++ [(u, v, b)])).2 ∧
        (edgeCalls log).filterMap Prod.snd ++ (match e with | none => [] | some e => [e]) =
          es.map (fun e => (e.1, e.2.1, e.2.2.2)) ∧ es.length ≤ (edgeCalls log).length + 1) →
      MInv key dflt moved g.adj.dir k kv ⟨c, adj⟩ (log ++ [(.edge u v b, .edge e)]) := by
    intro adj e hd ⟨es, q1, q2, q3, q4, q5⟩
    have hv : vertexCalls (log ++ [(.edge u v b, .edge e)]) = vertexCalls log := by
      rw [vertexCalls_append]; simp [vertexCalls]
    have he : edgeCalls (log ++ [(.edge u v b, .edge e)]) = edgeCalls log ++ [((u, v, b), e)] := by
      rw [edgeCalls_append]; simp [edgeCalls]
    refine ⟨p2, p4.trans h.kind, p3, hd, ?_, ?_, ?_, ?_, ?_, ?_, ?_, ?_⟩
    · intro hk
      have := hl0 hk
      rw [he, List.length_append, List.length_singleton]
      exact this
    · refine ⟨es, l', c0, q1, ?_, ?_, ?_, ?_, ?_⟩
      · rw [he, List.map_append]; exact q2
      · rw [he, List.map_append, List.map_append]; exact q3
      · rw [he, List.filterMap_append, ← q4]
        cases e <;> rfl
      · rw [he, List.length_append]; exact q5
      · rw [he]
        intro d hd
        rcases List.mem_append.mp hd with hd | hd
        · exact ⟨hsub _ (a7 d hd).1, hsub _ (a7 d hd).2⟩
        · rw [List.mem_singleton.mp hd]
          exact ⟨(c3 u).mpr p7, (c3 v).mpr p8⟩
    · rw [hv]
      intro d hd
      obtain ⟨y, hy, e⟩ := h.logged d hd
      exact ⟨y, p5 _ _ hy, e⟩
    · rw [hv]; exact h.new
    · rw [hv]; exact h.nodup
    · rw [hv]
      intro w y hw
      rcases p6 w y hw with hw0 | ⟨hk, e, hn⟩
      · exact h.from_ w y hw0
      · refine Or.inr ⟨by rw [← h.kind, ← p4]; exact hk, e, ?_⟩
        rintro d hd rfl
        obtain ⟨z, hz, -⟩ := h.logged d hd
        rw [hn] at hz
        cases hz
    · intro hk
      rw [numbered_append, ← h.count hk]
      exact p9 (p4.trans (h.kind.trans hk))
    · intro hk
      have : c = g.vs := p10 (by rw [p4, h.kind, hk]; simp)
      rw [hv]
      show c.ids = _
      rw [this]
      exact h.inOrder hk
  have hdup : (∃ d ∈ es, ends g.adj.dir.un d = ends g.adj.dir.un (u, v, (b, (0 : Int)))) ↔
      ∃ d ∈ (accept k.unique g.adj.dir.un [] ((edgeCalls log).map Prod.fst)).1, ends g.adj.dir.un d = ends g.adj.dir.un (u, v, b) := by
    rw [← a3]
    constructor
    · rintro ⟨d, hd, he⟩; exact ⟨_, List.mem_map_of_mem hd, he⟩
    · rintro ⟨d, hd, he⟩
      obtain ⟨f, hf, rfl⟩ := List.mem_map.mp hd
      exact ⟨f, hf, he⟩
  by_cases hd : k.unique = true ∧
      ∃ d ∈ (accept k.unique g.adj.dir.un [] ((edgeCalls log).map Prod.fst)).1, ends g.adj.dir.un d = ends g.adj.dir.un (u, v, b)
  · have hr := hs.1 ⟨hd.1, hdup.mpr hd.2⟩
    refine ⟨⟨c, { g.adj with vertices := l' }⟩, none, ?_, hmk _ none rfl ⟨es, hg, ?_, ?_, ?_, by omega⟩, p4⟩
    · simp only [Mixed.tryAddEdge, p1, hsee, hr]
    · rw [accept_snoc, if_pos hd]; exact a3
    · rw [accept_snoc, if_pos hd, a4]; rfl
    · rw [a5]; simp
  · obtain ⟨adj, id, r1, r2, r3, r4, -⟩ := hs.2 fun hc => hd ⟨hc.1, hdup.mp hc.2⟩
    refine ⟨⟨c, adj⟩, some (u, v, id), ?_, hmk _ _ (r3) ⟨es ++ [(u, v, (b, id))], ?_, ?_, ?_, ?_, ?_⟩, p4⟩
    · simp only [Mixed.tryAddEdge, p1, hsee, r1]
    · have : ({ adj with vertices := l' } : AdjN Int β) = adj := by
        rw [show l' = adj.vertices from r4.symm]
      rw [this]
      exact r2
    · rw [accept_snoc, if_neg hd, List.map_append, a3]; rfl
    · rw [accept_snoc, if_neg hd, a4]; rfl
    · rw [a5, List.map_append]; rfl
    · rw [List.length_append, List.length_singleton]
      omega

theorem Made.inv (h : Made key dflt ordV o moved dir k kv g log) : MInv key dflt moved dir k kv g log := by
  induction h with
  | init => exact MInv.init
  | @snoc g log c g' a hm hl hs ih =>
    cases c with
    | vertex x =>
      simp only [Mixed.insert, Option.some.injEq, Prod.mk.injEq] at hs
      obtain ⟨rfl, rfl⟩ := hs
      exact ih.vertex x hl
    | edge u v b =>
      obtain ⟨g1, e, h1, h2, -⟩ := ih.edge o hl
      simp only [Mixed.insert, h1, Option.map_some, Option.some.injEq, Prod.mk.injEq] at hs
      obtain ⟨rfl, rfl⟩ := hs
      exact h2

end Actl.Storage
