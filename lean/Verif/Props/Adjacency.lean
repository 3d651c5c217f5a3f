import Verif.Props.AdjacencyC

/-! C41 for graphs whose vertices are numbered (a random access vertex container), where `try_add_edge`
adds the vertices it needs, and for a fixed set of vertices. -/

namespace Actl.Storage

open Actl.Ids

variable {V R β : Type} [LinearOrder V]

theorem mem_firstVertices {n : Nat} {w : Int} : w ∈ firstVertices n ↔ 0 ≤ w ∧ w < n := by
  unfold firstVertices
  rw [List.mem_map]
  constructor
  · rintro ⟨i, hi, rfl⟩
    rw [List.mem_range] at hi
    omega
  · rintro ⟨h1, h2⟩
    exact ⟨w.toNat, List.mem_range.mpr (by omega), by omega⟩

theorem firstVertices_length (n : Nat) : (firstVertices n).length = n := by simp [firstVertices]

theorem firstVertices_nodup (n : Nat) : (firstVertices n).Nodup :=
  List.nodup_range.map fun _ _ h => Int.ofNat.inj h

/-- The vertices a sequence of calls should leave: those there were and all up to the greatest endpoint. -/
def vertexCount : Nat → List (Int × Int × β) → Nat
  | n, [] => n
  | n, e :: calls => vertexCount (max n (max e.1 e.2.1 + 1).toNat) calls

theorem grow_eq {n : Nat} {u v : Int} (hu : 0 ≤ u ∧ u < 2 ^ 31 - 1) (hv : 0 ≤ v ∧ v < 2 ^ 31 - 1) :
    grow (firstVertices n) u v = some (firstVertices (max n (max u v + 1).toNat)) := by
  have hm : max u v < 2 ^ 31 - 1 := max_lt hu.2 hv.2
  have hm0 : 0 ≤ max u v := le_trans hu.1 (le_max_left u v)
  simp only [grow, firstVertices_length]
  by_cases h : max u v ≥ (n : Int)
  · rw [if_pos h, if_pos hm, Nat.max_eq_right (by omega)]
  · rw [if_neg h, Nat.max_eq_left (by omega)]

theorem grows_grow : Grows grow (fun vs => ∃ n, vs = firstVertices n) (fun w => 0 ≤ w ∧ w < 2 ^ 31 - 1) := by
  rintro vs u v ⟨n, rfl⟩ hu hv
  refine ⟨_, grow_eq hu hv, ⟨_, rfl⟩, firstVertices_nodup _, ?_, ?_, ?_⟩
  · intro w hw
    rw [mem_firstVertices] at hw ⊢
    have := Nat.le_max_left n (max u v + 1).toNat
    omega
  · rw [mem_firstVertices]
    have := Nat.le_max_right n (max u v + 1).toNat
    have := le_max_left u v
    omega
  · rw [mem_firstVertices]
    have := Nat.le_max_right n (max u v + 1).toNat
    have := le_max_right u v
    omega

theorem grow_foldl {calls : List (Int × Int × β)} :
    ∀ (n : Nat), (∀ e ∈ calls, (0 ≤ e.1 ∧ e.1 < 2 ^ 31 - 1) ∧ 0 ≤ e.2.1 ∧ e.2.1 < 2 ^ 31 - 1) →
    calls.foldl (fun vs e => (grow vs e.1 e.2.1).getD vs) (firstVertices n) =
      firstVertices (vertexCount n calls) := by
  induction calls with
  | nil => intro n _; rfl
  | cons e calls ih =>
    intro n h
    have he := h e (List.mem_cons_self ..)
    rw [List.foldl_cons, grow_eq he.1 he.2, Option.getD_some,
      ih _ fun f hf => h f (List.mem_cons_of_mem _ hf)]
    rfl

/-- A fixed set of vertices (a container of nodes). -/
theorem grows_fixed (vs : List V) (hn : vs.Nodup) :
    Grows (fun vs _ _ => some vs) (fun ws => ws = vs) (fun w => w ∈ vs) := by
  rintro ws u v rfl hu hv
  exact ⟨ws, rfl, rfl, hn, fun _ h => h, hu, hv⟩

/-! ### Numbered vertices -/

/-- A sequence of calls of `try_add_edge` of a graph with numbered vertices. -/
def AdjN.tryAddAll (o : OrdersN Int β) (moved : β → β) :
    AdjN Int β → List (Int × Int × β) → Option (AdjN Int β × List (Option (EdgeN Int)))
  | g, [] => some (g, [])
  | g, e :: es =>
    match g.tryAddEdge o moved e.1 e.2.1 e.2.2 with
    | none => none
    | some (g, a) =>
      match AdjN.tryAddAll o moved g es with
      | none => none
      | some (g, as) => some (g, a :: as)

theorem AdjN.tryAddAll_eq (o : OrdersN Int β) (moved : β → β) (calls : List (Int × Int × β)) :
    ∀ g : AdjN Int β, g.tryAddAll o moved calls = addAllN grow o moved g calls := by
  induction calls with
  | nil => intro g; rfl
  | cons e calls ih =>
    intro g
    simp only [AdjN.tryAddAll, addAllN, AdjN.tryAddEdge]
    rcases grow g.vertices e.1 e.2.1 with _ | vs
    · rfl
    · simp only
      rcases ({ g with vertices := vs } : AdjN Int β).tryAddEdgeImpl o moved e.1 e.2.1 e.2.2 with _ | ⟨g, a⟩
      · rfl
      · simp only [ih]
        rcases addAllN grow o moved g calls with _ | ⟨_, _⟩ <;> rfl

def AdjC.tryAddAll (rep : Rep Int R) (o : OrdersC Int R β) (junk : Int) :
    AdjC Int R β → List (Int × Int × β) → Option (AdjC Int R β × List (Option (EdgeN Int)))
  | g, [] => some (g, [])
  | g, e :: es =>
    match g.tryAddEdge rep o junk e.1 e.2.1 e.2.2 with
    | none => none
    | some (g, a) =>
      match AdjC.tryAddAll rep o junk g es with
      | none => none
      | some (g, as) => some (g, a :: as)

theorem AdjC.tryAddAll_eq (rep : Rep Int R) (o : OrdersC Int R β) (junk : Int) (calls : List (Int × Int × β)) :
    ∀ g : AdjC Int R β, g.tryAddAll rep o junk calls = addAllC rep grow o junk g calls := by
  induction calls with
  | nil => intro g; rfl
  | cons e calls ih =>
    intro g
    simp only [AdjC.tryAddAll, addAllC, AdjC.tryAddEdge]
    rcases grow g.vertices e.1 e.2.1 with _ | vs
    · rfl
    · simp only
      rcases ({ g with vertices := vs } : AdjC Int R β).tryAddEdgeImpl rep o junk e.1 e.2.1 e.2.2 with _ | ⟨g, a⟩
      · rfl
      · simp only [ih]
        rcases addAllC rep grow o junk g calls with _ | ⟨_, _⟩ <;> rfl

/-- C41 without an edge container: numbered vertices, starting with `n` of them and no edges, any sequence
of calls with endpoints that are indices less than the greatest `int`, any direction and any kind of
out-edge container.  See `adjacencyN_history`.  What is missing is false of the code: a graph without vertices
(`AdjN.allEdges_empty_ub`) and other endpoints (`tryAddEdge_max_ub`, `tryAddEdge_negative_ub`). -/
theorem adjacency_history_partial (o : OrdersN Int β) (moved : β → β) (dir : Dir) (k : Kind) (n : Nat)
    {calls : List (Int × Int × β)} (hne : n ≠ 0 ∨ calls ≠ [])
    (hok : ∀ e ∈ calls, (0 ≤ e.1 ∧ e.1 < 2 ^ 31 - 1) ∧ 0 ≤ e.2.1 ∧ e.2.1 < 2 ^ 31 - 1)
    (hl : k = .vec → calls.length < 2 ^ 31) :
    ∃ g as, (AdjN.init dir k (firstVertices n) : AdjN Int β).tryAddAll o moved calls = some (g, as) ∧
      as.map Option.isSome = (accept k.unique dir.un [] calls).2 ∧
      g.edgeCount = (accept k.unique dir.un [] calls).2.count true ∧
      g.vertices = firstVertices (vertexCount n calls) ∧
      (∀ e ∈ calls, e.1 < vertexCount n calls ∧ e.2.1 < vertexCount n calls) ∧
      (∀ u ∈ g.vertices, ∃ l, g.outEdges u = some l ∧ (∀ e ∈ l, e.1 = u) ∧
        (l.map fun e => e.2.2).Nodup ∧
        (l.map fun e => e.2.1).Perm ((outOf dir.un (accept k.unique dir.un [] calls).1 u).map Prod.fst) ∧
        (l.map fun e => (e.2.1, g.bundle e)).Perm
          ((outWith moved dir.un (accept k.unique dir.un [] calls).1 u).map fun d => (d.1, some d.2))) ∧
      (dir = .bidirectional → ∀ u ∈ g.vertices, ∃ m, g.inEdges u = some m ∧
        m.Perm ((g.vertices.flatMap fun w => (g.outEdges w).getD []).filter fun e => decide (e.2.1 = u))) ∧
      (dir = .undirected → (∀ u ∈ g.vertices, ∃ l, g.outEdges u = some l ∧
          g.inEdges u = some (l.map fun e => (e.2.1, e.1, e.2.2))) ∧
        ∀ u v l m, g.outEdges u = some l → g.outEdges v = some m →
          (l.map fun e => e.2.1).count v = (m.map fun e => e.2.1).count u) ∧
      (∃ l, (∀ fuel, l.length < fuel → g.allEdges fuel = some l) ∧ l.length = g.edgeCount ∧
        (l.map fun e => (e.1, e.2.1)).Perm ((accept k.unique dir.un [] calls).1.map (ends dir.un)) ∧
        (l.map fun e => (e.1, e.2.2)).Nodup) := by
  have hf := grow_foldl n hok
  obtain ⟨g, as, h1, h2, h3, h4, h5, h6, h7, h8, h9, h10, ⟨l, l1, l2, l3⟩, h12, h13⟩ :=
    adjacencyN_history grows_grow o moved dir k (firstVertices_nodup n) ⟨n, rfl⟩
      (hne.imp (fun h e => h (by have := congrArg List.length e; simpa [firstVertices] using this)) id) hok hl
  rw [hf] at h6
  refine ⟨g, as, by rw [AdjN.tryAddAll_eq]; exact h1, h3, h4, h6, ?_, ?_, h9, h10, l, l1, ?_, l2, l3⟩
  · intro e he
    obtain ⟨a, b⟩ := h7 e he
    rw [h6, mem_firstVertices] at a b
    exact ⟨a.2, b.2⟩
  · intro u hu
    obtain ⟨l, a1, a2, a3, a4, -⟩ := h8 u hu
    exact ⟨l, a1, a2, a3, a4, h13 u l a1⟩
  · have e1 := l2.length_eq
    rw [List.length_map, List.length_map] at e1
    rw [e1, h4]
    have hcount : ∀ (calls st : List (Int × Int × β)), (accept k.unique dir.un st calls).1.length =
        st.length + (accept k.unique dir.un st calls).2.count true := by
      intro calls
      induction calls with
      | nil => intro st; simp [accept]
      | cons e calls ih =>
        intro st
        simp only [accept]
        split
        · simp [ih]
        · simp [ih]; omega
    simpa using hcount calls []

/-- C41 with an edge container, numbered vertices.  `rep` is what the edges store of their ends (see
`good_target`, `good_xor`, `good_twoInt`); nothing is asked of it where the out-edges have the targets, as with
associative containers and the selector `edge_property` (`noRep`).  See `adjacencyC_history`. -/
theorem adjacency_history_edges_partial {rep : Rep Int R} (o : OrdersC Int R β) (junk : Int) (dir : Dir)
    {hasOut : Bool} (hr : hasOut = false → GoodRep rep dir IsInt) {k ke : Kind} (hk : hasOut = false → k.assoc = false)
    (hke : ke.assoc = false) {n : Nat} (hn : n < 2 ^ 31)
    {calls : List (Int × Int × β)} (hne : n ≠ 0 ∨ calls ≠ [])
    (hok : ∀ e ∈ calls, (0 ≤ e.1 ∧ e.1 < 2 ^ 31 - 1) ∧ 0 ≤ e.2.1 ∧ e.2.1 < 2 ^ 31 - 1)
    (hl : k = .vec ∨ ke = .vec → calls.length < 2 ^ 31) :
    ∃ g as es, (AdjC.init dir hasOut k ke (firstVertices n) : AdjC Int R β).tryAddAll rep o junk calls =
        some (g, as) ∧
      as.map Option.isSome = (accept k.unique dir.un [] calls).2 ∧
      g.edgeCount = (accept k.unique dir.un [] calls).2.count true ∧
      g.vertices = firstVertices (vertexCount n calls) ∧
      (∀ e ∈ calls, e.1 < vertexCount n calls ∧ e.2.1 < vertexCount n calls) ∧
      (es.map strip = (accept k.unique dir.un [] calls).1 ∧ (es.map fun e => e.2.2.2).Nodup ∧
        as.filterMap id = es.map fun e => (e.1, e.2.1, e.2.2.2)) ∧
      (∀ u ∈ g.vertices, ∃ l, g.outEdges rep u = some l ∧
        l.Perm ((outOf dir.un es u).map fun d => (u, d.1, d.2.2)) ∧
        (k.assoc = false → l = (outOf dir.un es u).map fun d => (u, d.1, d.2.2))) ∧
      (dir = .bidirectional → ∀ u ∈ g.vertices, ∃ m, g.inEdges rep u = some m ∧
        m.Perm ((g.vertices.flatMap fun w => (g.outEdges rep w).getD []).filter
          fun e => decide (e.2.1 = u))) ∧
      (dir = .undirected → (∀ u ∈ g.vertices, ∃ l, g.outEdges rep u = some l ∧
          g.inEdges rep u = some (l.map fun e => (e.2.1, e.1, e.2.2))) ∧
        ∀ u v l m, g.outEdges rep u = some l → g.outEdges rep v = some m →
          (l.map fun e => e.2.1).count v = (m.map fun e => e.2.1).count u) ∧
      (∃ l, (∀ fuel, l.length < fuel → g.allEdges rep fuel = some l) ∧ l.length = g.edgeCount ∧
        (l.map fun e => ((e.1, e.2.1), e.2.2)).Perm (es.map fun e => (ends dir.un e, e.2.2.2))) ∧
      (∀ e ∈ es, (g.edges.cont.at e.2.2.2).map Prod.snd = some e.2.2.1) := by
  have hgr : Grows grow (fun vs => ∃ n : Nat, n < 2 ^ 31 ∧ vs = firstVertices n)
      (fun w => 0 ≤ w ∧ w < 2 ^ 31 - 1) := by
    rintro vs u v ⟨m, hm, rfl⟩ hu hv
    obtain ⟨vs', p1, -, p3⟩ := grows_grow _ u v ⟨m, rfl⟩ hu hv
    have := grow_eq (n := m) hu hv
    obtain rfl := Option.some.inj (this.symm.trans p1)
    exact ⟨_, p1, ⟨_, by omega, rfl⟩, p3⟩
  have hf := grow_foldl n hok
  obtain ⟨g, as, es, h1, h2, h3, h4, h5, h6, h7, h8, h9, h10, h11, ⟨l, l1, l2⟩, h13⟩ :=
    adjacencyC_history hgr (P := IsInt)
      (by
        rintro vs ⟨m, hm, rfl⟩ v hv
        rw [mem_firstVertices] at hv
        exact ⟨by omega, by omega⟩) o junk dir hr hk hke (firstVertices_nodup n) ⟨n, hn, rfl⟩
      (hne.imp (fun h e => h (by have := congrArg List.length e; simpa [firstVertices] using this)) id) hok hl
  rw [hf] at h6
  refine ⟨g, as, es, by rw [AdjC.tryAddAll_eq]; exact h1, h3, h4, h6, ?_, h8, h9, h10, h11, ⟨l, l1, ?_, l2⟩, h13⟩
  · intro e he
    obtain ⟨a, b⟩ := h7 e he
    rw [h6, mem_firstVertices] at a b
    exact ⟨a.2, b.2⟩
  · have e1 := l2.length_eq
    have e2 := congrArg List.length h8.1
    rw [List.length_map, List.length_map] at e1
    rw [List.length_map] at e2
    rw [e1, h4, e2]
    have hcount : ∀ (calls st : List (Int × Int × β)), (accept k.unique dir.un st calls).1.length =
        st.length + (accept k.unique dir.un st calls).2.count true := by
      intro calls
      induction calls with
      | nil => intro st; simp [accept]
      | cons e calls ih =>
        intro st
        simp only [accept]
        split
        · simp [ih]
        · simp [ih]; omega
    simpa using hcount calls []

/-- The greatest `int` as an endpoint: `n + 1` overflows. -/
theorem tryAddEdge_max_ub (o : OrdersN Int β) (moved : β → β) {g : AdjN Int β} {u v : Int}
    (hn : (g.vertices.length : Int) < 2 ^ 31) (h : max u v = 2 ^ 31 - 1) (b : β) :
    g.tryAddEdge o moved u v b = none := by
  have : grow g.vertices u v = none := by
    simp only [grow, h]
    rw [if_pos (by omega), if_neg (by omega)]
  simp only [AdjN.tryAddEdge, this]

theorem grow_first {n : Nat} {u v : Int} {vs} (h : grow (firstVertices n) u v = some vs) :
    ∃ m, vs = firstVertices m := by
  unfold grow at h
  simp only at h
  split at h
  · split at h
    · exact ⟨_, (Option.some.inj h).symm⟩
    · simp at h
  · exact ⟨_, (Option.some.inj h).symm⟩

/-- A negative source is not refused: undefined. -/
theorem tryAddEdge_negative_ub (o : OrdersN Int β) (moved : β → β) {n : Nat} {dir : Dir} {k : Kind} {u v : Int}
    (hu : u < 0) (hv : v < 2 ^ 31 - 1) (b : β) :
    (AdjN.init dir k (firstVertices n) : AdjN Int β).tryAddEdge o moved u v b = none := by
  have key : ∀ m, u ∉ firstVertices m := fun m hm => by rw [mem_firstVertices] at hm; omega
  show (match grow (firstVertices n) u v with
    | none => none
    | some vs => ({ AdjN.init dir k (firstVertices n) with vertices := vs } : AdjN Int β).tryAddEdgeImpl o moved
      u v b) = none
  rcases hg : grow (firstVertices n) u v with _ | vs
  · rfl
  · obtain ⟨m, rfl⟩ := grow_first hg
    simp only [AdjN.tryAddEdgeImpl, key, not_false_eq_true, if_true]

/-! Examples. -/

def plainN : OrdersN Int String :=
  ⟨fun _ => ⟨fun _ l => l, fun _ l => List.Perm.refl l⟩, fun _ => ⟨fun _ l => l, fun _ l => List.Perm.refl l⟩,
    ⟨fun _ l => l, fun _ l => List.Perm.refl l⟩⟩

def plainC {R : Type} : OrdersC Int R String :=
  ⟨fun _ => ⟨fun _ l => l, fun _ l => List.Perm.refl l⟩, fun _ => ⟨fun _ l => l, fun _ l => List.Perm.refl l⟩,
    ⟨fun _ l => l, fun _ l => List.Perm.refl l⟩⟩

/-- Calls with a loop, a parallel edge and the same edge reversed. -/
def someCalls : List (Int × Int × String) := [(2, 0, "a"), (1, 1, "b"), (0, 2, "c"), (2, 0, "d"), (4, 2, "e")]

example : ∀ e ∈ someCalls, (0 ≤ e.1 ∧ e.1 < 2 ^ 31 - 1) ∧ 0 ≤ e.2.1 ∧ e.2.1 < 2 ^ 31 - 1 := by decide +kernel

set_option synthInstance.maxHeartbeats 400000
set_option synthInstance.maxSize 1000

example : ((AdjN.init .undirected .set (firstVertices 0)).tryAddAll plainN (fun _ => "") someCalls).map
    (fun r => (r.2, r.1.edgeCount, r.1.vertices, r.1.outEdges 2)) =
    some ([some (2, 0, 0), some (1, 1, 0), none, none, some (4, 2, 0)], 3, [0, 1, 2, 3, 4],
      some [(2, 0, 0), (2, 4, 1)]) := by
  decide +kernel
example : ((AdjN.init .undirected .set (firstVertices 0)).tryAddAll plainN (fun _ => "") someCalls).map
    (fun r => (r.1.allEdges 10, r.1.bundle (2, 0, 0), r.1.bundle (0, 2, 0))) =
    some (some [(0, 2, 0), (1, 1, 0), (2, 4, 1)], some "a", some "") := by
  decide +kernel

example : ((AdjN.init .bidirectional .vec (firstVertices 0)).tryAddAll plainN (fun _ => "") someCalls).map
    (fun r => (r.1.edgeCount, r.1.outEdges 2, r.1.inEdges 2, r.1.allEdges 10)) =
    some (5, some [(2, 0, 0), (2, 0, 1)], some [(0, 2, 0), (4, 2, 0)],
      some [(0, 2, 0), (1, 1, 0), (2, 0, 0), (2, 0, 1), (4, 2, 0)]) := by
  decide +kernel

example : ((AdjC.init .undirected false .vec .vec (firstVertices 0)).tryAddAll xorRep plainC 77 someCalls).map
    (fun r => (r.1.edgeCount, r.1.outEdges xorRep 2, r.1.inEdges xorRep 0, r.1.allEdges xorRep 10)) =
    some (5, some [(2, 0, 0), (2, 0, 2), (2, 0, 3), (2, 4, 4)], some [(2, 0, 0), (2, 0, 2), (2, 0, 3)],
      some [(0, 2, 0), (0, 2, 2), (0, 2, 3), (1, 1, 1), (2, 4, 4)]) := by
  decide +kernel

example : ((AdjC.init .bidirectional true .set .list (firstVertices 0)).tryAddAll xorRep plainC 77 someCalls).map
    (fun r => (r.2, r.1.edgeCount, r.1.outEdges xorRep 2, r.1.inEdges xorRep 0)) =
    some ([some (2, 0, 0), some (1, 1, 1), some (0, 2, 2), none, some (4, 2, 3)], 4, some [(2, 0, 0)],
      some [(2, 0, 0)]) := by
  decide +kernel
example : ((AdjC.init .bidirectional true .set .list (firstVertices 0)).tryAddAll xorRep plainC 77 someCalls).map
    (fun r => (r.1.findEdge xorRep 4 2, r.1.findEdge xorRep 4 1)) =
    some (some (some (4, 2, 3)), none) := by
  decide +kernel

/-- The selector `edge_property`: the edges store no ends. -/
example : ((AdjC.init .undirected true .list .list (firstVertices 0)).tryAddAll (noRep Int) plainC 77 someCalls).map
    (fun r => (r.1.edgeCount, r.1.outEdges (noRep Int) 2, r.1.inEdges (noRep Int) 0, r.1.allEdges (noRep Int) 10)) =
    some (5, some [(2, 0, 0), (2, 0, 2), (2, 0, 3), (2, 4, 4)], some [(2, 0, 0), (2, 0, 2), (2, 0, 3)],
      some [(0, 2, 0), (0, 2, 2), (0, 2, 3), (1, 1, 1), (2, 4, 4)]) := by
  decide +kernel

/-- An undirected edge with an rvalue bundle: its copy at the second end has lost it. -/
example : ((AdjN.init .undirected .vec (firstVertices 0)).tryAddAll plainN (fun _ => "") [(0, 1, "x")]).map
    (fun r => ((r.1.outEdges 0).map fun l => l.map r.1.bundle, (r.1.outEdges 1).map fun l => l.map r.1.bundle)) =
    some (some [some "x"], some [some ""]) := by
  decide +kernel

end Actl.Storage
