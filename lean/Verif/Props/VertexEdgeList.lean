import Verif.Model.VertexEdgeList
import Verif.Props.EdgeList

/-!
# C83: the ends of all edges are vertices

* `tryAddEdge_vec`: an edge between any two non-negative numbers adds exactly the missing vertices.
* `addEdgeOf_spec`: an edge between two values joins the vertices with these values, which are added
  only if absent.
* `closed_history`: whatever the calls, the ends of all edges are vertices.
* `addEdge_negative_fails`, `resize_dangling_fails`, `setVertex_duplicate_fails`: where the code falls
  short.
-/

namespace Actl.Storage

open Actl.Ids

variable {α β κ : Type} [LinearOrder κ] {key : α → κ}

/-! ### The statements -/

/-- The ends of every edge are vertices. -/
def VEL.Closed (g : VEL α β) : Prop :=
  ∀ d ∈ g.el.cont.values, (g.atVertex d.1.1).isSome = true ∧ (g.atVertex d.1.2).isSome = true

/-- Both containers are in order (`Cont.WF`) and have less than `2^31` elements if random access. -/
structure VEL.OK (key : α → κ) (g : VEL α β) : Prop where
  vwf : g.vs.WF key
  ewf : g.el.cont.WF fun d => endsKey d.1
  vfits : g.vs.Fits
  efits : g.el.cont.Fits

/-! ### Auxiliary facts -/

theorem resize_values (c : Cont α) (dflt : α) (n : Nat) (h : c.items.length ≤ n) :
    (resizeVec c dflt n).values = c.values ++ List.replicate (n - c.items.length) dflt := by
  simp only [resizeVec, Cont.values, List.map_append, List.take_of_length_le h, List.map_map]
  congr 1
  rw [List.eq_replicate_iff]
  simp

theorem resize_length (c : Cont α) (dflt : α) (n : Nat) (h : c.items.length ≤ n) :
    (resizeVec c dflt n).items.length = n := by
  simp only [resizeVec, List.length_append, List.length_map, List.length_range, List.length_take]
  omega

theorem resize_wf (c : Cont α) (dflt : α) (n : Nat) (h : c.items.length ≤ n) (hk : c.kind = .vec)
    (hw : c.WF key) : (resizeVec c dflt n).WF key := by
  refine ⟨?_, ?_, ?_, ?_⟩
  · simp only [resizeVec, List.take_of_length_le h, List.map_append, List.map_map]
    rw [List.nodup_append]
    refine ⟨hw.nodup, ?_, ?_⟩
    · refine List.Nodup.map ?_ List.nodup_range
      intro a b e
      simp only [Function.comp_apply] at e
      omega
    · intro a ha b hb
      simp only [List.mem_map, Function.comp_apply, List.mem_range] at ha hb
      obtain ⟨p, hp, rfl⟩ := ha
      obtain ⟨i, _, rfl⟩ := hb
      have := hw.lt p hp
      omega
  · intro p hp
    simp only [resizeVec, List.take_of_length_le h, List.mem_append, List.mem_map,
      List.mem_range] at hp ⊢
    rcases hp with hp | ⟨i, hi, rfl⟩
    · have := hw.lt p hp
      omega
    · show c.next + i < _
      omega
  · intro hu
    simp [resizeVec, hk, Kind.unique] at hu
  · intro hu
    simp [resizeVec, hk, Kind.sorted] at hu

/-- The edges after an insertion. -/
theorem edges_after (ordE : Order ((Int × Int) × β)) (el : EdgeList (Int × Int) β)
    (hw : el.cont.WF fun d => endsKey d.1) (hf : el.cont.Fits) (u v : Int) (b : β) :
    let r := el.tryAddEdge (twoRep Int) endsKey ordE u v b
    (r.2.1.1, r.2.1.2.1) = normEnds el.undirected u v ∧
    (∃ b', r.1.cont.at r.2.1.2.2 = some (normEnds el.undirected u v, b') ∧
      (r.2.2 = true → b' = b)) ∧
    (∀ d ∈ r.1.cont.values, d ∈ el.cont.values ∨ d = (normEnds el.undirected u v, b)) ∧
    (∀ d ∈ el.cont.values, d ∈ r.1.cont.values) ∧
    r.1.cont.WF (fun d => endsKey d.1) ∧ r.1.cont.kind = el.cont.kind ∧
    r.1.cont.items.length ≤ el.cont.items.length + 1 := by
  intro r
  obtain ⟨h1, h2, h3, _, h5, h6⟩ := idEmplace_spec (key := fun d : (Int × Int) × β => endsKey d.1)
    ordE hw hf (normEnds el.undirected u v, b)
  have hr : r.1.cont = (el.cont.idEmplace (fun d => endsKey d.1) ordE
      (normEnds el.undirected u v, b)).1 := rfl
  have hr2 : r.2.1.2.2 = (el.cont.idEmplace (fun d => endsKey d.1) ordE
      (normEnds el.undirected u v, b)).2.1 := rfl
  have hr3 : r.2.2 = (el.cont.idEmplace (fun d => endsKey d.1) ordE
      (normEnds el.undirected u v, b)).2.2 := rfl
  rw [hr, hr2, hr3]
  refine ⟨rfl, ?_, ?_, ?_, h5, h6, ?_⟩
  · cases hb : (el.cont.idEmplace (fun d => endsKey d.1) ordE (normEnds el.undirected u v, b)).2.2 with
    | false =>
      obtain ⟨he, y, hy, hk⟩ := h2 hb
      rw [he]
      refine ⟨y.2, ?_, by simp⟩
      rw [hy]
      have : y.1 = normEnds el.undirected u v := toLex.injective hk
      rw [← this]
    | true => exact ⟨b, (h3 hb).1, fun _ => rfl⟩
  · intro d hd
    cases hb : (el.cont.idEmplace (fun d => endsKey d.1) ordE (normEnds el.undirected u v, b)).2.2 with
    | false =>
      rw [(h2 hb).1] at hd
      exact .inl hd
    | true =>
      have := (h3 hb).2.2.1.mem_iff.mp hd
      rcases List.mem_cons.mp this with rfl | h
      · exact .inr rfl
      · exact .inl h
  · intro d hd
    cases hb : (el.cont.idEmplace (fun d => endsKey d.1) ordE (normEnds el.undirected u v, b)).2.2 with
    | false =>
      rw [(h2 hb).1]
      exact hd
    | true => exact (h3 hb).2.2.1.mem_iff.mpr (List.mem_cons_of_mem _ hd)
  · cases hb : (el.cont.idEmplace (fun d => endsKey d.1) ordE (normEnds el.undirected u v, b)).2.2 with
    | false =>
      rw [(h2 hb).1]
      omega
    | true =>
      have := (h3 hb).2.2.1.length_eq
      simp only [Cont.values, List.length_map, List.length_cons] at this
      omega

theorem normEnds_mem {P : Int → Prop} (un : Bool) (u v : Int) (hu : P u) (hv : P v) :
    P (normEnds un u v).1 ∧ P (normEnds un u v).2 := by
  unfold normEnds
  split_ifs
  · exact ⟨hv, hu⟩
  · exact ⟨hu, hv⟩

/-! ### Theorems -/

/-- An edge between two numbers in a graph with a vector of vertices: exactly the missing vertices are
added, with the default value; the edge returned has the ends given and is stored. -/
theorem tryAddEdge_vec (dflt : α) (ordE : Order ((Int × Int) × β)) (g : VEL α β) (hk : g.vs.kind = .vec)
    (hg : g.OK key) (u v : Int) (b : β) (hu : 0 ≤ u) (hv : 0 ≤ v) (hmax : max u v + 1 < 2 ^ 31) :
    ∃ g' e ok, g.tryAddEdge dflt ordE u v b = some (g', e, ok) ∧
      g'.vertexCount = max g.vertexCount (max u v + 1).toNat ∧
      g'.vs.values = g.vs.values ++ List.replicate (g'.vertexCount - g.vertexCount) dflt ∧
      (∀ w, 0 ≤ w → w ≤ max u v → (g'.atVertex w).isSome = true) ∧
      (∀ w x, g.atVertex w = some x → g'.atVertex w = some x) ∧
      (e.1, e.2.1) = normEnds g.el.undirected u v ∧
      (∃ b', g'.el.cont.at e.2.2 = some ((e.1, e.2.1), b') ∧ (ok = true → b' = b)) ∧
      (g.Closed → g'.Closed) := by
  have hra : g.vs.kind.ra = true := by rw [hk]; rfl
  obtain ⟨e1, e2, e3, e4, e5, e6, e7⟩ := edges_after ordE g.el hg.ewf hg.efits u v b
  by_cases hc : max u v ≥ g.vertexCount
  · have hlen : g.vs.items.length ≤ (max u v + 1).toNat := by
      have : (g.vs.items.length : Int) ≤ max u v := hc
      omega
    have hv' := resize_values g.vs dflt _ hlen
    have hl' := resize_length g.vs dflt _ hlen
    have hat : ∀ w, 0 ≤ w → w ≤ max u v →
        ((resizeVec g.vs dflt (max u v + 1).toNat).at w).isSome = true := by
      intro w hw hw'
      have hlt : w.toNat < (resizeVec g.vs dflt (max u v + 1).toNat).values.length := by
        rw [Cont.values, List.length_map, hl']
        omega
      rw [Option.isSome_iff_exists]
      exact ⟨_, (at_vec (by exact hra)).mpr ⟨hw, List.getElem?_eq_getElem hlt⟩⟩
    have hold : ∀ w x, g.vs.at w = some x → (resizeVec g.vs dflt (max u v + 1).toNat).at w = some x := by
      intro w x h
      obtain ⟨h1, h2⟩ := (at_vec hra).mp h
      refine (at_vec (by exact hra)).mpr ⟨h1, ?_⟩
      rw [hv', List.getElem?_append_left, h2]
      by_contra hn
      rw [List.getElem?_eq_none (by omega)] at h2
      cases h2
    refine ⟨⟨resizeVec g.vs dflt (max u v + 1).toNat,
        (g.el.tryAddEdge (twoRep Int) endsKey ordE u v b).1⟩,
      (g.el.tryAddEdge (twoRep Int) endsKey ordE u v b).2.1,
      (g.el.tryAddEdge (twoRep Int) endsKey ordE u v b).2.2,
      by rw [VEL.tryAddEdge]; rw [if_pos hra, if_pos hc, if_pos hmax], ?_, ?_, hat, hold,
      e1, ?_, ?_⟩
    · show (resizeVec g.vs dflt (max u v + 1).toNat).items.length = _
      rw [hl']
      simp only [VEL.vertexCount]
      omega
    · show (resizeVec g.vs dflt (max u v + 1).toNat).values = _
      rw [hv']
      simp only [VEL.vertexCount, hl']
    · rw [e1]
      exact e2
    · intro hcl d hd
      rcases e3 d hd with h | h
      · obtain ⟨h1, h2⟩ := hcl d h
        obtain ⟨x, hx⟩ := Option.isSome_iff_exists.mp h1
        obtain ⟨y, hy⟩ := Option.isSome_iff_exists.mp h2
        exact ⟨Option.isSome_iff_exists.mpr ⟨x, hold _ _ hx⟩,
          Option.isSome_iff_exists.mpr ⟨y, hold _ _ hy⟩⟩
      · rw [h]
        exact normEnds_mem (P := fun w => ((resizeVec g.vs dflt (max u v + 1).toNat).at w).isSome = true)
          g.el.undirected u v (hat u hu (le_max_left _ _)) (hat v hv (le_max_right _ _))
  · have hlt : max u v < (g.vs.items.length : Int) := not_le.mp hc
    have hat : ∀ w, 0 ≤ w → w ≤ max u v → (g.vs.at w).isSome = true := by
      intro w hw hw'
      have hlt : w.toNat < g.vs.values.length := by
        rw [Cont.values, List.length_map]
        omega
      rw [Option.isSome_iff_exists]
      exact ⟨_, (at_vec hra).mpr ⟨hw, List.getElem?_eq_getElem hlt⟩⟩
    refine ⟨⟨g.vs, (g.el.tryAddEdge (twoRep Int) endsKey ordE u v b).1⟩,
      (g.el.tryAddEdge (twoRep Int) endsKey ordE u v b).2.1,
      (g.el.tryAddEdge (twoRep Int) endsKey ordE u v b).2.2,
      by rw [VEL.tryAddEdge]; rw [if_pos hra, if_neg hc], ?_, ?_, hat, fun _ _ h => h,
      e1, ?_, ?_⟩
    · simp only [VEL.vertexCount]
      omega
    · simp [VEL.vertexCount]
    · rw [e1]
      exact e2
    · intro hcl d hd
      rcases e3 d hd with h | h
      · exact hcl d h
      · rw [h]
        exact normEnds_mem (P := fun w => (g.vs.at w).isSome = true)
          g.el.undirected u v (hat u hu (le_max_left _ _)) (hat v hv (le_max_right _ _))

/-- Adding a vertex: it has the value given; it is new unless the container is unique and has the
value; the other vertices and the edges stay. -/
theorem addVertex_spec (ordV : Order α) (g : VEL α β) (hw : g.vs.WF key) (hf : g.vs.Fits) (x : α) :
    let r := g.addVertex key ordV x
    (∃ z, r.1.atVertex r.2 = some z ∧ key z = key x) ∧
    (if g.vs.kind.unique = true ∧ (∃ y ∈ g.vs.values, key y = key x) then r.1.vs = g.vs
      else r.1.atVertex r.2 = some x ∧ r.1.vs.values.Perm (x :: g.vs.values)) ∧
    (∀ w y, g.atVertex w = some y → r.1.atVertex w = some y) ∧
    r.1.el = g.el ∧ r.1.vs.WF key ∧ r.1.vs.kind = g.vs.kind ∧
    r.1.vs.items.length ≤ g.vs.items.length + 1 := by
  intro r
  obtain ⟨h1, h2, h3, h4, h5, h6⟩ := idEmplace_spec ordV hw hf x
  cases hb : (g.vs.idEmplace key ordV x).2.2 with
  | false =>
    obtain ⟨he, z, hz, hk⟩ := h2 hb
    refine ⟨⟨z, h4 _ _ hz, hk⟩, ?_, h4, rfl, h5, h6, ?_⟩
    · rw [if_pos (h1.mp hb)]
      exact he
    · show (g.vs.idEmplace key ordV x).1.items.length ≤ _
      rw [he]
      omega
  | true =>
    obtain ⟨h7, _, h8, _⟩ := h3 hb
    refine ⟨⟨x, h7, rfl⟩, ?_, h4, rfl, h5, h6, ?_⟩
    · rw [if_neg (fun h => by rw [h1.mpr h] at hb; cases hb)]
      exact ⟨h7, h8⟩
    · have := h8.length_eq
      simp only [Cont.values, List.length_map, List.length_cons] at this
      show (g.vs.idEmplace key ordV x).1.items.length ≤ _
      omega

/-- The edge between two vertices of a graph with another vertex container. -/
theorem tryAddEdge_node (dflt : α) (ordE : Order ((Int × Int) × β)) (g : VEL α β)
    (hk : g.vs.kind.ra = false) (u v : Int) (b : β) :
    g.tryAddEdge dflt ordE u v b =
      some (⟨g.vs, (g.el.tryAddEdge (twoRep Int) endsKey ordE u v b).1⟩,
        (g.el.tryAddEdge (twoRep Int) endsKey ordE u v b).2) := by
  rw [VEL.tryAddEdge]
  rw [if_neg (by rw [hk]; simp)]

theorem values_mem_iff {c : Cont α} (hw : (c.items.map Prod.fst).Nodup) {x : α} :
    x ∈ c.values ↔ ∃ id, c.at id = some x := by
  cases hra : c.kind.ra with
  | false =>
    constructor
    · intro h
      obtain ⟨⟨a, y⟩, hp, rfl⟩ := List.mem_map.mp h
      exact ⟨a, (at_node hw hra).mpr ⟨a, rfl, hp⟩⟩
    · rintro ⟨id, h⟩
      obtain ⟨a, _, hm⟩ := (at_node hw hra).mp h
      exact List.mem_map.mpr ⟨_, hm, rfl⟩
  | true =>
    constructor
    · intro h
      obtain ⟨i, hi⟩ := List.mem_iff_getElem?.mp h
      exact ⟨i, (at_vec hra).mpr ⟨by omega, by simpa using hi⟩⟩
    · rintro ⟨id, h⟩
      exact List.mem_of_getElem? ((at_vec hra).mp h).2

theorem addEdgeOf_core (dflt : α) (ordV : Order α) (ordE : Order ((Int × Int) × β)) (g : VEL α β)
    (hk : g.vs.kind.unique = true) (hg : g.OK key) (x y : α) (b : β) (sw : Bool) :
    let r := g.addVertex key ordV x
    let s := r.1.addVertex key ordV y
    let n := if sw then normEnds g.el.undirected s.2 r.2 else normEnds g.el.undirected r.2 s.2
    ∃ g' e ok, (if sw then s.1.tryAddEdge dflt ordE s.2 r.2 b else s.1.tryAddEdge dflt ordE r.2 s.2 b)
        = some (g', e, ok) ∧
      (∃ x' y', g'.atVertex r.2 = some x' ∧ key x' = key x ∧
        g'.atVertex s.2 = some y' ∧ key y' = key y) ∧
      (∀ w z, g.atVertex w = some z → g'.atVertex w = some z) ∧
      (∀ k, (∃ z ∈ g'.vs.values, key z = k) ↔ (∃ z ∈ g.vs.values, key z = k) ∨ k = key x ∨ k = key y) ∧
      (e.1, e.2.1) = n ∧
      (∃ b', g'.el.cont.at e.2.2 = some ((e.1, e.2.1), b')) ∧
      (g.el.edgeCount < 2 ^ 31 - 1 → g'.OK key) ∧ (g.Closed → g'.Closed) := by
  intro r s n
  have hra : g.vs.kind.ra = false := by revert hk; cases g.vs.kind <;> decide
  obtain ⟨⟨x', a1, a2⟩, a3, a4, a5, a6, a7, -⟩ := addVertex_spec ordV g hg.vwf hg.vfits x
  have hra1 : r.1.vs.kind.ra = false := by
    show (g.addVertex key ordV x).1.vs.kind.ra = false
    rw [a7]; exact hra
  have hf1 : r.1.vs.Fits := fun h => by rw [hra1] at h; cases h
  obtain ⟨⟨y', c1, c2⟩, c3, c4, c5, c6, c7, -⟩ := addVertex_spec ordV r.1 a6 hf1 y
  have hra2 : s.1.vs.kind.ra = false := by
    show (r.1.addVertex key ordV y).1.vs.kind.ra = false
    rw [c7]; exact hra1
  have hel : s.1.el = g.el := by
    show (r.1.addVertex key ordV y).1.el = g.el
    rw [c5]; exact a5
  have hkeys : ∀ k, (∃ z ∈ s.1.vs.values, key z = k) ↔
      (∃ z ∈ g.vs.values, key z = k) ∨ k = key x ∨ k = key y := by
    have step : ∀ (h : VEL α β) (hw : h.vs.WF key) (hf : h.vs.Fits) (t : α) k,
        (∃ z ∈ (h.addVertex key ordV t).1.vs.values, key z = k) ↔
          (∃ z ∈ h.vs.values, key z = k) ∨ k = key t := by
      intro h hw hf t k
      obtain ⟨_, q, _⟩ := addVertex_spec ordV h hw hf t
      split_ifs at q with hc
      · rw [q]
        constructor
        · exact .inl
        · rintro (h | rfl)
          · exact h
          · exact hc.2
      · obtain ⟨_, q⟩ := q
        constructor
        · rintro ⟨z, hz, rfl⟩
          rcases List.mem_cons.mp (q.mem_iff.mp hz) with rfl | h
          · exact .inr rfl
          · exact .inl ⟨z, h, rfl⟩
        · rintro (⟨z, hz, rfl⟩ | rfl)
          · exact ⟨z, q.mem_iff.mpr (List.mem_cons_of_mem _ hz), rfl⟩
          · exact ⟨t, q.mem_iff.mpr List.mem_cons_self, rfl⟩
    intro k
    rw [step r.1 a6 hf1 y k, step g hg.vwf hg.vfits x k, or_assoc]
  have hat1 : (s.1.atVertex r.2).isSome = true := Option.isSome_iff_exists.mpr ⟨x', c4 _ _ a1⟩
  have hat2 : (s.1.atVertex s.2).isSome = true := Option.isSome_iff_exists.mpr ⟨y', c1⟩
  have hew : s.1.el.cont.WF fun d => endsKey d.1 := by rw [hel]; exact hg.ewf
  have hef : s.1.el.cont.Fits := by rw [hel]; exact hg.efits
  have main : ∀ u v, (s.1.atVertex u).isSome = true → (s.1.atVertex v).isSome = true →
      ∃ g' e ok, s.1.tryAddEdge dflt ordE u v b = some (g', e, ok) ∧ g'.vs = s.1.vs ∧
        (e.1, e.2.1) = normEnds g.el.undirected u v ∧
        (∃ b', g'.el.cont.at e.2.2 = some ((e.1, e.2.1), b')) ∧
        (g.el.edgeCount < 2 ^ 31 - 1 → g'.OK key) ∧ (g.Closed → g'.Closed) := by
    intro u v hu hv
    obtain ⟨e1, ⟨b', e2, -⟩, e3, e4, e5, e6, e7⟩ := edges_after ordE s.1.el hew hef u v b
    refine ⟨⟨s.1.vs, (s.1.el.tryAddEdge (twoRep Int) endsKey ordE u v b).1⟩,
      (s.1.el.tryAddEdge (twoRep Int) endsKey ordE u v b).2.1,
      (s.1.el.tryAddEdge (twoRep Int) endsKey ordE u v b).2.2,
      tryAddEdge_node dflt ordE s.1 hra2 u v b, rfl, ?_, ⟨b', ?_⟩, ?_, ?_⟩
    · rw [e1, hel]
    · rw [e1]
      exact e2
    · intro hc
      refine ⟨c6, e5, fun h => (Bool.false_ne_true (hra2.symm.trans h)).elim, fun h => ?_⟩
      have : g.el.cont.items.length < 2 ^ 31 - 1 := hc
      rw [← hel] at this
      exact lt_of_le_of_lt e7 (by omega)
    · intro hcl d hd
      rcases e3 d hd with h | h
      · rw [hel] at h
        obtain ⟨h1, h2⟩ := hcl d h
        obtain ⟨p, hp⟩ := Option.isSome_iff_exists.mp h1
        obtain ⟨q, hq⟩ := Option.isSome_iff_exists.mp h2
        exact ⟨Option.isSome_iff_exists.mpr ⟨p, c4 _ _ (a4 _ _ hp)⟩,
          Option.isSome_iff_exists.mpr ⟨q, c4 _ _ (a4 _ _ hq)⟩⟩
      · rw [h]
        exact normEnds_mem (P := fun w => (s.1.vs.at w).isSome = true) _ u v hu hv
  cases sw with
  | false =>
    obtain ⟨g', e, ok, m1, m2, m3, m4, m5, m6⟩ := main r.2 s.2 hat1 hat2
    refine ⟨g', e, ok, m1, ⟨x', y', ?_, a2, ?_, c2⟩, ?_, ?_, m3, m4, m5, m6⟩
    · show g'.vs.at r.2 = _
      rw [m2]; exact c4 _ _ a1
    · show g'.vs.at s.2 = _
      rw [m2]; exact c1
    · intro w z h
      show g'.vs.at w = _
      rw [m2]; exact c4 _ _ (a4 _ _ h)
    · rw [m2]; exact hkeys
  | true =>
    obtain ⟨g', e, ok, m1, m2, m3, m4, m5, m6⟩ := main s.2 r.2 hat2 hat1
    refine ⟨g', e, ok, m1, ⟨x', y', ?_, a2, ?_, c2⟩, ?_, ?_, m3, m4, m5, m6⟩
    · show g'.vs.at r.2 = _
      rw [m2]; exact c4 _ _ a1
    · show g'.vs.at s.2 = _
      rw [m2]; exact c1
    · intro w z h
      show g'.vs.at w = _
      rw [m2]; exact c4 _ _ (a4 _ _ h)
    · rw [m2]; exact hkeys

/-- An edge between two values, in a graph with a unique vertex container, whatever the order in which
the vertices are added: the edge returned joins vertices with these values (in either order if
undirected) and is stored; no values but these are added, every vertex of before stays, and no two
vertices have equal values. -/
theorem addEdgeOf_spec (dflt : α) (ordV : Order α) (ordE : Order ((Int × Int) × β)) (g : VEL α β)
    (hk : g.vs.kind.unique = true) (hg : g.OK key) (hc : g.el.edgeCount < 2 ^ 31 - 1) (x y : α) (b : β)
    (sf : Bool) :
    ∃ g' e, g.addEdgeOf key dflt ordV ordE sf x y b = some (g', e) ∧
      (∃ x' y', key x' = key x ∧ key y' = key y ∧
        ((g'.atVertex e.1 = some x' ∧ g'.atVertex e.2.1 = some y') ∨
          g.el.undirected = true ∧ g'.atVertex e.1 = some y' ∧ g'.atVertex e.2.1 = some x')) ∧
      (∀ w z, g.atVertex w = some z → g'.atVertex w = some z) ∧
      (∀ k, (∃ z ∈ g'.vs.values, key z = k) ↔ (∃ z ∈ g.vs.values, key z = k) ∨ k = key x ∨ k = key y) ∧
      (g'.vs.values.Pairwise fun p q => key p ≠ key q) ∧
      (∃ b', g'.el.cont.at e.2.2 = some ((e.1, e.2.1), b')) ∧
      g'.OK key ∧ (g.Closed → g'.Closed) := by
  have hkind : ∀ {g' : VEL α β} {u v : Int} {h : VEL α β} {t}, h.vs.kind = g.vs.kind →
      h.tryAddEdge dflt ordE u v b = some (g', t) → g'.vs.kind.unique = true := by
    intro g' u v h t hh he
    have hra : h.vs.kind.ra = false := by rw [hh]; revert hk; cases g.vs.kind <;> decide
    rw [tryAddEdge_node dflt ordE h hra] at he
    simp only [Option.some.injEq, Prod.mk.injEq] at he
    rw [← he.1]
    show h.vs.kind.unique = true
    rw [hh]; exact hk
  have hkind2 : ∀ p q, ((g.addVertex key ordV p).1.addVertex key ordV q).1.vs.kind = g.vs.kind := by
    intro p q
    show ((g.vs.emplace key ordV p).1.emplace key ordV q).1.kind = _
    rw [emplace_kind, emplace_kind]
  cases sf with
  | false =>
    obtain ⟨g', e, ok, m1, ⟨x', y', p1, p2, p3, p4⟩, m3, m4, m5, m6, m7, m8⟩ :=
      addEdgeOf_core dflt ordV ordE g hk hg x y b false
    simp only [Bool.false_eq_true, if_false] at m1 m5
    refine ⟨g', e, by rw [VEL.addEdgeOf, if_neg (by simp)]; dsimp only; rw [m1]; rfl,
      ⟨x', y', p2, p4, ?_⟩, m3, m4, (m7 hc).vwf.uniq (hkind (hkind2 x y) m1), m6, m7 hc, m8⟩
    unfold normEnds at m5
    split_ifs at m5 with hs
    · right
      obtain ⟨q1, q2⟩ := Prod.mk.inj m5
      rw [q1, q2]
      exact ⟨hs.1, p3, p1⟩
    · left
      obtain ⟨q1, q2⟩ := Prod.mk.inj m5
      rw [q1, q2]
      exact ⟨p1, p3⟩
  | true =>
    obtain ⟨g', e, ok, m1, ⟨y', x', p1, p2, p3, p4⟩, m3, m4, m5, m6, m7, m8⟩ :=
      addEdgeOf_core dflt ordV ordE g hk hg y x b true
    simp only [if_true] at m1 m5
    refine ⟨g', e, by rw [VEL.addEdgeOf, if_pos rfl]; dsimp only; rw [m1]; rfl,
      ⟨x', y', p4, p2, ?_⟩, m3, fun k => by rw [m4 k, or_comm (a := k = key y)],
      (m7 hc).vwf.uniq (hkind (hkind2 y x) m1), m6, m7 hc, m8⟩
    unfold normEnds at m5
    split_ifs at m5 with hs
    · right
      obtain ⟨q1, q2⟩ := Prod.mk.inj m5
      rw [q1, q2]
      exact ⟨hs.1, p1, p3⟩
    · left
      obtain ⟨q1, q2⟩ := Prod.mk.inj m5
      rw [q1, q2]
      exact ⟨p3, p1⟩

/-! ### Histories -/

/-- The calls. -/
inductive Call (α β : Type)
  | addVertex (x : α)
  | addEdge (u v : Int) (b : β)
  | addEdgeOf (secondFirst : Bool) (x y : α) (b : β)
  | removeEdge (e : Int × Int × Int)

/-- Whether the arguments of a call are in range: for a vector of vertices the ends of an edge are
numbers from `0` to `2^31 - 2`, otherwise they are vertices of the graph; values can be given only to a
unique container; the edge to remove is one of the graph.  Containers of fewer than `2^31 - 1`. -/
def VEL.Allowed (g : VEL α β) : Call α β → Prop
  | .addVertex _ => g.vertexCount < 2 ^ 31 - 1
  | .addEdge u v _ => g.el.edgeCount < 2 ^ 31 - 1 ∧
      if g.vs.kind = .vec then 0 ≤ u ∧ 0 ≤ v ∧ max u v + 1 < 2 ^ 31
      else (g.atVertex u).isSome = true ∧ (g.atVertex v).isSome = true
  | .addEdgeOf _ _ _ _ => g.el.edgeCount < 2 ^ 31 - 1 ∧ g.vs.kind.unique = true
  | .removeEdge e => (g.el.cont.at e.2.2).isSome = true

/-- The effect of a call. -/
def VEL.call (key : α → κ) (dflt : α) (ordV : Order α) (ordE : Order ((Int × Int) × β)) (g : VEL α β) :
    Call α β → Option (VEL α β)
  | .addVertex x => some (g.addVertex key ordV x).1
  | .addEdge u v b => (g.tryAddEdge dflt ordE u v b).map Prod.fst
  | .addEdgeOf sf x y b => (g.addEdgeOf key dflt ordV ordE sf x y b).map Prod.fst
  | .removeEdge e => g.removeEdge e

/-- What can be reached from an empty graph, or one of `n` vertices, by allowed calls. -/
inductive VEL.Reach (key : α → κ) (dflt : α) (ordV : Order α) (ordE : Order ((Int × Int) × β)) :
    VEL α β → Prop
  | empty (vk ek : Kind) (un : Bool) : Reach key dflt ordV ordE ⟨Cont.empty vk, ⟨un, Cont.empty ek⟩⟩
  | sized (n : Nat) (ek : Kind) (un : Bool) : n < 2 ^ 31 → Reach key dflt ordV ordE (VEL.init dflt n un ek)
  | step {g g' : VEL α β} {c : Call α β} : Reach key dflt ordV ordE g → g.Allowed c →
      g.call key dflt ordV ordE c = some g' → Reach key dflt ordV ordE g'

theorem idErase_kind {c c' : Cont α} {id : Int} (h : c.idErase id = some c') : c'.kind = c.kind := by
  unfold Cont.idErase at h
  split at h
  · cases h
  · split_ifs at h
    cases h
    rfl

/-- An allowed call is defined, and keeps the graph in order and the ends of all edges vertices. -/
theorem call_closed (dflt : α) (ordV : Order α) (ordE : Order ((Int × Int) × β)) (g : VEL α β)
    (c : Call α β) (hg : g.OK key) (hcl : g.Closed) (ha : g.Allowed c) :
    ∃ g', g.call key dflt ordV ordE c = some g' ∧ g'.OK key ∧ g'.Closed := by
  cases c with
  | addVertex x =>
    obtain ⟨_, _, a4, a5, a6, a7, a8⟩ := addVertex_spec ordV g hg.vwf hg.vfits x
    refine ⟨_, rfl, ⟨a6, hg.ewf, fun _ => ?_, hg.efits⟩, ?_⟩
    · have : g.vs.items.length < 2 ^ 31 - 1 := ha
      exact lt_of_le_of_lt a8 (by omega)
    · intro d hd
      obtain ⟨h1, h2⟩ := hcl d hd
      obtain ⟨p, hp⟩ := Option.isSome_iff_exists.mp h1
      obtain ⟨q, hq⟩ := Option.isSome_iff_exists.mp h2
      exact ⟨Option.isSome_iff_exists.mpr ⟨p, a4 _ _ hp⟩, Option.isSome_iff_exists.mpr ⟨q, a4 _ _ hq⟩⟩
  | addEdge u v b =>
    obtain ⟨hc, ha⟩ := ha
    obtain ⟨e1, _, e3, e4, e5, e6, e7⟩ := edges_after ordE g.el hg.ewf hg.efits u v b
    have hef : (g.el.tryAddEdge (twoRep Int) endsKey ordE u v b).1.cont.Fits := by
      intro _
      have : g.el.cont.items.length < 2 ^ 31 - 1 := hc
      exact lt_of_le_of_lt e7 (by omega)
    split_ifs at ha with hk
    · obtain ⟨hu, hv, hm⟩ := ha
      obtain ⟨g', e, ok, m1, m2, _, _, _, _, _, m8⟩ := tryAddEdge_vec dflt ordE g hk hg u v b hu hv hm
      refine ⟨g', by rw [VEL.call, m1]; rfl, ?_, m8 hcl⟩
      have hra : g.vs.kind.ra = true := by rw [hk]; rfl
      have hfit : g'.vs.Fits := by
        intro _
        show g'.vertexCount < _
        have := hg.vfits hra
        have h2 : g.vertexCount < 2 ^ 31 := this
        rw [m2]
        omega
      rw [VEL.tryAddEdge] at m1
      by_cases hc' : max u v ≥ g.vertexCount
      · rw [if_pos hra, if_pos hc', if_pos hm] at m1
        obtain ⟨rfl, _⟩ := Prod.mk.inj (Option.some.inj m1)
        refine ⟨resize_wf g.vs dflt _ ?_ hk hg.vwf, e5, hfit, hef⟩
        have : (g.vs.items.length : Int) ≤ max u v := hc'
        omega
      · rw [if_pos hra, if_neg hc'] at m1
        obtain ⟨rfl, _⟩ := Prod.mk.inj (Option.some.inj m1)
        exact ⟨hg.vwf, e5, hg.vfits, hef⟩
    · have hra : g.vs.kind.ra = false := by revert hk; cases g.vs.kind <;> decide
      refine ⟨⟨g.vs, (g.el.tryAddEdge (twoRep Int) endsKey ordE u v b).1⟩,
        by rw [VEL.call, tryAddEdge_node dflt ordE g hra]; rfl,
        ⟨hg.vwf, e5, hg.vfits, hef⟩, ?_⟩
      intro d hd
      rcases e3 d hd with h | h
      · exact hcl d h
      · rw [h]
        exact normEnds_mem (P := fun w => (g.vs.at w).isSome = true) _ u v ha.1 ha.2
  | addEdgeOf sf x y b =>
    obtain ⟨hc, hk⟩ := ha
    obtain ⟨g', e, m1, _, _, _, _, _, m7, m8⟩ := addEdgeOf_spec dflt ordV ordE g hk hg hc x y b sf
    exact ⟨g', by rw [VEL.call, m1]; rfl, m7, m8 hcl⟩
  | removeEdge e =>
    obtain ⟨d, hd⟩ := Option.isSome_iff_exists.mp ha
    obtain ⟨c', h1, h2, h3, _, _⟩ := idErase_spec hg.ewf hd
    refine ⟨⟨g.vs, { g.el with cont := c' }⟩, by simp [VEL.call, VEL.removeEdge, EdgeList.removeEdge, h1],
      ⟨hg.vwf, h2, hg.vfits, ?_⟩, ?_⟩
    · intro hr
      have hr' : g.el.cont.kind.ra = true := by rw [← idErase_kind h1]; exact hr
      have := h3.length_eq
      simp only [Cont.values, List.length_map, List.length_cons] at this
      have h4 := hg.efits hr'
      show c'.items.length < 2 ^ 31
      omega
    · intro d' hd'
      exact hcl d' (h3.mem_iff.mp (List.mem_cons_of_mem _ hd'))

/-- Whatever the calls: the ends of all edges are vertices, and every allowed call is defined. -/
theorem closed_history (dflt : α) (ordV : Order α) (ordE : Order ((Int × Int) × β)) {g : VEL α β}
    (h : g.Reach key dflt ordV ordE) :
    g.Closed ∧ ∀ c, g.Allowed c → (g.call key dflt ordV ordE c).isSome = true := by
  have main : g.OK key ∧ g.Closed := by
    induction h with
    | empty vk ek un =>
      exact ⟨⟨Cont.WF.empty _ _, Cont.WF.empty _ _, fun _ => by simp [Cont.empty],
        fun _ => by simp [Cont.empty]⟩, fun d hd => by simp [Cont.empty, Cont.values] at hd⟩
    | sized n ek un hn =>
      refine ⟨⟨resize_wf _ dflt n (by simp [Cont.empty]) rfl (Cont.WF.empty _ _), Cont.WF.empty _ _,
        fun _ => ?_, fun _ => by simp [VEL.init, Cont.empty]⟩,
        fun d hd => by simp [VEL.init, Cont.empty, Cont.values] at hd⟩
      show (resizeVec (Cont.empty .vec) dflt n).items.length < _
      rw [resize_length _ _ _ (by simp [Cont.empty])]
      exact hn
    | step _ ha hc ih =>
      obtain ⟨g'', h1, h2, h3⟩ := call_closed dflt ordV ordE _ _ ih.1 ih.2 ha
      rw [h1] at hc
      cases hc
      exact ⟨h2, h3⟩
  refine ⟨main.2, fun c ha => ?_⟩
  obtain ⟨g', h1, _, _⟩ := call_closed dflt ordV ordE g c main.1 main.2 ha
  rw [h1]
  rfl

/-! ### Where the code falls short -/

/-- An edge with a negative end is accepted, and its end is no vertex. -/
theorem addEdge_negative_fails (dflt : α) (ordE : Order ((Int × Int) × β)) (g : VEL α β)
    (hk : g.vs.kind = .vec) (hg : g.OK key) (hun : g.el.undirected = false) (u v : Int) (b : β)
    (hu : u < 0) (hmax : max u v + 1 < 2 ^ 31) :
    ∃ g' e ok, g.tryAddEdge dflt ordE u v b = some (g', e, ok) ∧ e.1 = u ∧ g'.atVertex e.1 = none ∧
      ¬ g'.Closed := by
  have hra : g.vs.kind.ra = true := by rw [hk]; rfl
  obtain ⟨e1, ⟨b', e2, -⟩, -, -, e5, -, -⟩ := edges_after ordE g.el hg.ewf hg.efits u v b
  have hn : normEnds g.el.undirected u v = (u, v) := by simp [normEnds, hun]
  rw [hn] at e1 e2
  have hnone : ∀ c : Cont α, c.kind = .vec → c.at u = none := by
    intro c hc
    have : c.kind.ra = true := by rw [hc]; rfl
    simp only [Cont.at, this, if_true, if_neg (not_le.mpr hu)]
  have hmem := (values_mem_iff e5.nodup).mpr ⟨_, e2⟩
  by_cases hc : max u v ≥ g.vertexCount
  · refine ⟨⟨resizeVec g.vs dflt (max u v + 1).toNat,
        (g.el.tryAddEdge (twoRep Int) endsKey ordE u v b).1⟩,
      (g.el.tryAddEdge (twoRep Int) endsKey ordE u v b).2.1,
      (g.el.tryAddEdge (twoRep Int) endsKey ordE u v b).2.2,
      by rw [VEL.tryAddEdge]; rw [if_pos hra, if_pos hc, if_pos hmax], (Prod.mk.inj e1).1, ?_, ?_⟩
    · rw [(Prod.mk.inj e1).1]
      exact hnone _ hk
    · intro hcl
      have := (hcl _ hmem).1
      rw [VEL.atVertex, hnone (resizeVec g.vs dflt (max u v + 1).toNat) hk] at this
      cases this
  · refine ⟨⟨g.vs, (g.el.tryAddEdge (twoRep Int) endsKey ordE u v b).1⟩,
      (g.el.tryAddEdge (twoRep Int) endsKey ordE u v b).2.1,
      (g.el.tryAddEdge (twoRep Int) endsKey ordE u v b).2.2,
      by rw [VEL.tryAddEdge]; rw [if_pos hra, if_neg hc], (Prod.mk.inj e1).1, ?_, ?_⟩
    · rw [(Prod.mk.inj e1).1]
      exact hnone _ hk
    · intro hcl
      have := (hcl _ hmem).1
      rw [VEL.atVertex, hnone _ hk] at this
      cases this

/-- `resize`, which is public, drops vertices but not their edges: afterwards the ends of any edge at
a vertex from `n` on are no vertices. -/
theorem resize_dangling_fails (dflt : α) (g : VEL α β) (hk : g.vs.kind = .vec) (n : Nat)
    (hn : n ≤ g.vertexCount) (d : (Int × Int) × β) (hd : d ∈ g.el.cont.values) (hu : (n : Int) ≤ d.1.1) :
    d ∈ (g.resize dflt n).el.cont.values ∧ (g.resize dflt n).atVertex d.1.1 = none ∧
      ¬ (g.resize dflt n).Closed := by
  have hra : (resizeVec g.vs dflt n).kind.ra = true := by show g.vs.kind.ra = true; rw [hk]; rfl
  have hlen : (resizeVec g.vs dflt n).values.length = n := by
    have h : n ≤ g.vs.items.length := hn
    simp only [Cont.values, resizeVec, List.length_map, List.length_append, List.length_take,
      List.length_range]
    omega
  have hnone : (g.resize dflt n).atVertex d.1.1 = none := by
    show (resizeVec g.vs dflt n).at d.1.1 = none
    rw [Option.eq_none_iff_forall_not_mem]
    intro x hx
    have h2 := ((at_vec hra).mp hx).2
    rw [List.getElem?_eq_none (by omega)] at h2
    cases h2
  refine ⟨hd, hnone, fun hcl => ?_⟩
  have := (hcl d hd).1
  rw [hnone] at this
  cases this

/-- Assigning to a vertex of a unique container the value of another vertex: now two vertices have
equal values, so the container is broken. -/
theorem setVertex_duplicate_fails (g : VEL α β) (hw : g.vs.WF key) (hk : g.vs.kind.unique = true)
    (u w : Int) (x y : α) (huw : u ≠ w) (hu : g.atVertex u = some x) (hw' : g.atVertex w = some y) :
    (g.setVertex u y).atVertex u = some y ∧ (g.setVertex u y).atVertex w = some y ∧
      ¬ (g.setVertex u y).vs.WF key := by
  have hra : g.vs.kind.ra = false := by revert hk; cases g.vs.kind <;> decide
  obtain ⟨a, rfl, ha⟩ := (at_node hw.nodup hra).mp hu
  obtain ⟨c, rfl, hc⟩ := (at_node hw.nodup hra).mp hw'
  have hitems : (g.setVertex a y).vs.items =
      g.vs.items.map fun p => if (p.1 : Int) = a then (p.1, y) else p := by
    simp [VEL.setVertex, Cont.modify, hra]
  have hfst : (g.setVertex a y).vs.items.map Prod.fst = g.vs.items.map Prod.fst := by
    rw [hitems, List.map_map]
    apply List.map_congr_left
    intro p _
    simp only [Function.comp_apply]
    split_ifs <;> rfl
  have hnd : ((g.setVertex a y).vs.items.map Prod.fst).Nodup := by rw [hfst]; exact hw.nodup
  have hra' : (g.setVertex (a : Int) y).vs.kind.ra = false := hra
  have hac : ¬ ((c : Int) = a) := fun h => huw h.symm
  have m1 : (a, y) ∈ (g.setVertex (a : Int) y).vs.items := by
    rw [hitems]
    exact List.mem_map.mpr ⟨_, ha, by simp⟩
  have m2 : (c, y) ∈ (g.setVertex (a : Int) y).vs.items := by
    rw [hitems]
    exact List.mem_map.mpr ⟨_, hc, by rw [if_neg hac]⟩
  refine ⟨(at_node hnd hra').mpr ⟨a, rfl, m1⟩, (at_node hnd hra').mpr ⟨c, rfl, m2⟩, fun hbad => ?_⟩
  have hu := hbad.uniq hk
  rw [Cont.values, List.pairwise_map] at hu
  obtain ⟨i, hi⟩ := List.mem_iff_getElem?.mp m1
  obtain ⟨j, hj⟩ := List.mem_iff_getElem?.mp m2
  obtain ⟨hi1, hi2⟩ := List.getElem?_eq_some_iff.mp hi
  obtain ⟨hj1, hj2⟩ := List.getElem?_eq_some_iff.mp hj
  rw [List.pairwise_iff_getElem] at hu
  rcases Nat.lt_trichotomy i j with h | h | h
  · have := hu i j hi1 hj1 h
    rw [hi2, hj2] at this
    exact this rfl
  · subst h
    rw [hi2] at hj2
    exact hac (by exact_mod_cast (Prod.mk.inj hj2).1.symm)
  · have := hu j i hj1 hi1 h
    rw [hi2, hj2] at this
    exact this rfl

/-! ### Examples -/

def natOrder : Order Nat := ⟨fun _ l => l, fun _ l => List.Perm.refl l⟩
def veOrder : Order ((Int × Int) × Char) := ⟨fun _ l => l, fun _ l => List.Perm.refl l⟩

/-- Two vertices, then the edge 0-3: four vertices. -/
example : ((VEL.init 7 2 true .vec).tryAddEdge 9 veOrder 3 0 'a').map
    (fun r => (r.1.vs.values, r.2)) = some ([7, 7, 9, 9], (0, 3, 0), true) := by decide +kernel
/-- The edge between the values 5 and 4 of a set of vertices with 4: one vertex is added. -/
example : ((VEL.addVertex id natOrder ⟨Cont.empty .set, ⟨false, Cont.empty .vec⟩⟩ 4).1.addEdgeOf id 0
    natOrder veOrder false 5 4 'a').map (fun r => (r.1.vs.values, r.1.el.cont.values, r.2)) =
    some ([4, 5], [((1, 0), 'a')], (1, 0, 0)) := by decide +kernel
/-- An edge from -1 is stored, without a vertex -1. -/
example : ((VEL.init 7 2 false .vec).tryAddEdge 9 veOrder (-1) 0 'a').map
    (fun r => (r.1.vs.values, r.1.el.cont.values)) = some ([7, 7], [((-1, 0), 'a')]) := by decide +kernel
example : ((VEL.init 7 2 false .vec).tryAddEdge 9 veOrder (2 ^ 31 - 1) 0 'a').isNone = true := by
  decide +kernel

end Actl.Storage
