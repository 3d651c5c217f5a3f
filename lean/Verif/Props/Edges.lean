import Mathlib.Data.List.Pairwise
import Verif.Props.Adjacency
import Verif.Model.Edges

/-! C90: the handles of the edges of an adjacency list identify them. -/

namespace Actl.Storage

open Actl.Ids

section Order

variable {V : Type} [LinearOrder V]

theorem sameN_iff (e f : EdgeN V) : sameN e f = true ↔ e.1 = f.1 ∧ e.2.2 = f.2.2 := by
  simp only [sameN, Bool.and_eq_true, decide_eq_true_eq]; rfl

theorem sameC_iff (e f : EdgeN V) : sameC e f = true ↔ e.2.2 = f.2.2 := by
  simp only [sameC, decide_eq_true_eq]; rfl

theorem lessN_iff (e f : EdgeN V) : lessN e f = true ↔ e.1 < f.1 ∨ e.1 = f.1 ∧ e.2.2 < f.2.2 := by
  simp only [lessN, Bool.or_eq_true, decide_eq_true_eq, Bool.and_eq_true, Bool.not_eq_true',
    decide_eq_false_iff_not, not_lt]
  simp only [idN]
  constructor
  · rintro (h | ⟨h, h'⟩)
    · exact Or.inl h
    · rcases lt_or_eq_of_le h with h | h
      · exact Or.inl h
      · exact Or.inr ⟨h, h'⟩
  · rintro (h | ⟨h, h'⟩)
    · exact Or.inl h
    · exact Or.inr ⟨h.le, h'⟩

/-- What makes handles usable as keys of sorted and hashed containers: `==` is an equivalence, exactly one of
`<`, `==`, `>` holds of two handles, `<` is transitive, and equal handles have equal hashes. -/
def GoodKey {E : Type} (eq lt : E → E → Bool) (hash : E → Nat) : Prop :=
  (∀ e, eq e e = true) ∧ (∀ e f, eq e f = eq f e) ∧
  (∀ e f g, eq e f = true → eq f g = true → eq e g = true) ∧
  (∀ e f, [lt e f, eq e f, lt f e].count true = 1) ∧
  (∀ e f g, lt e f = true → lt f g = true → lt e g = true) ∧
  (∀ e f, eq e f = true → hash e = hash f)

/-- Handles of a graph without an edge container are good keys. -/
theorem sameN_key (h : V × Int → Nat) : GoodKey (sameN (V := V)) lessN (hashN h) := by
  refine ⟨fun e => ?_, fun e f => ?_, fun e f g h1 h2 => ?_, fun e f => ?_, fun e f g h1 h2 => ?_,
    fun e f he => ?_⟩
  · exact (sameN_iff e e).mpr ⟨rfl, rfl⟩
  · rw [Bool.eq_iff_iff, sameN_iff, sameN_iff]
    exact ⟨fun h => ⟨h.1.symm, h.2.symm⟩, fun h => ⟨h.1.symm, h.2.symm⟩⟩
  · rw [sameN_iff] at *
    exact ⟨h1.1.trans h2.1, h1.2.trans h2.2⟩
  · have e1 := lessN_iff e f
    have e2 := lessN_iff f e
    have e3 := sameN_iff e f
    rcases lt_trichotomy e.1 f.1 with hv | hv | hv
    · have a : lessN e f = true := e1.mpr (Or.inl hv)
      have b : lessN f e = false := Bool.eq_false_iff.mpr fun h => by
        rcases e2.mp h with h | h
        · exact lt_asymm h hv
        · exact hv.ne' h.1
      have c : sameN e f = false := Bool.eq_false_iff.mpr fun h => hv.ne (e3.mp h).1
      simp [a, b, c]
    · rcases lt_trichotomy e.2.2 f.2.2 with hi | hi | hi
      · have a : lessN e f = true := e1.mpr (Or.inr ⟨hv, hi⟩)
        have b : lessN f e = false := Bool.eq_false_iff.mpr fun h => by
          rcases e2.mp h with h | h
          · exact h.ne' hv
          · exact lt_asymm hi h.2
        have c : sameN e f = false := Bool.eq_false_iff.mpr fun h => hi.ne (e3.mp h).2
        simp [a, b, c]
      · have a : lessN e f = false := Bool.eq_false_iff.mpr fun h => by
          rcases e1.mp h with h | h
          · exact h.ne hv
          · exact h.2.ne hi
        have b : lessN f e = false := Bool.eq_false_iff.mpr fun h => by
          rcases e2.mp h with h | h
          · exact h.ne' hv
          · exact h.2.ne' hi
        have c : sameN e f = true := e3.mpr ⟨hv, hi⟩
        simp [a, b, c]
      · have a : lessN f e = true := e2.mpr (Or.inr ⟨hv.symm, hi⟩)
        have b : lessN e f = false := Bool.eq_false_iff.mpr fun h => by
          rcases e1.mp h with h | h
          · exact h.ne hv
          · exact lt_asymm hi h.2
        have c : sameN e f = false := Bool.eq_false_iff.mpr fun h => hi.ne' (e3.mp h).2
        simp [a, b, c]
    · have a : lessN f e = true := e2.mpr (Or.inl hv)
      have b : lessN e f = false := Bool.eq_false_iff.mpr fun h => by
        rcases e1.mp h with h | h
        · exact lt_asymm h hv
        · exact hv.ne' h.1
      have c : sameN e f = false := Bool.eq_false_iff.mpr fun h => hv.ne' (e3.mp h).1
      simp [a, b, c]
  · rw [lessN_iff] at *
    rcases h1 with h1 | h1 <;> rcases h2 with h2 | h2
    · exact Or.inl (h1.trans h2)
    · exact Or.inl (h2.1 ▸ h1)
    · exact Or.inl (h1.1 ▸ h2)
    · exact Or.inr ⟨h1.1.trans h2.1, h1.2.trans h2.2⟩
  · rw [sameN_iff] at he
    simp only [hashN, idN, he.1, he.2]

/-- Handles of a graph with an edge container are good keys. -/
theorem sameC_key (h : Int → Nat) : GoodKey (sameC (V := V)) lessC (hashC h) := by
  refine ⟨fun e => ?_, fun e f => ?_, fun e f g h1 h2 => ?_, fun e f => ?_, fun e f g h1 h2 => ?_,
    fun e f he => ?_⟩
  · simp [sameC]
  · simp only [sameC]; rw [Bool.eq_iff_iff]; simp [eq_comm]
  · rw [sameC_iff] at *
    exact h1.trans h2
  · simp only [sameC, lessC, idC]
    rcases lt_trichotomy e.2.2 f.2.2 with hi | hi | hi
    · simp [hi, hi.ne, not_lt_of_gt hi]
    · simp [hi]
    · simp [hi, hi.ne', not_lt_of_gt hi]
  · simp only [lessC, decide_eq_true_eq] at *
    exact h1.trans h2
  · rw [sameC_iff] at he
    simp only [hashC, idC, he]

end Order

variable {R β : Type}

theorem mem_outN_ids {moved : β → β} {k : Kind} {g : AdjN Int β} {es : List (Int × Int × (β × Int))}
    (h : NInv moved k g es) (hl : k = .vec → es.length < 2 ^ 31) (hd : g.dir ≠ .undirected) {u : Int}
    {l : List (EdgeN Int)} (hu : g.outEdges u = some l) :
    ∀ e ∈ l, ∃ f ∈ es, e = (f.1, f.2.1, f.2.2.2) := by
  have huv : u ∈ g.vertices := by
    by_contra hc
    simp [AdjN.outEdges, hc] at hu
  obtain ⟨l', h1, h2, h3, h4, h5⟩ := h.outEdges hl huv
  obtain rfl := Option.some.inj (hu.symm.trans h1)
  have hun : g.dir.un = false := by revert hd; cases g.dir <;> simp [Dir.un]
  let hs := (es.filter fun f => decide (f.1 = u)).map fun f => (f.1, f.2.1, f.2.2.2)
  have hsub : hs ⊆ l := by
    intro x hx
    obtain ⟨f, hf, rfl⟩ := List.mem_map.mp hx
    rw [List.mem_filter] at hf
    have e : f.1 = u := of_decide_eq_true hf.2
    have := h.ids f hf.1
    rw [e] at this ⊢
    exact (h5 _ _).mpr ⟨_, this⟩
  have hnd : hs.Nodup := by
    have h6 := h.idn
    have h7 : (es.filter fun f => decide (f.1 = u)).map (fun f => (f.1, f.2.2.2)) |>.Nodup :=
      (List.filter_sublist.map _).nodup h6
    refine List.Nodup.of_map (fun x : EdgeN Int => (x.1, x.2.2)) ?_
    simpa [hs, List.map_map, Function.comp_def] using h7
  have hlen : l.length ≤ hs.length := by
    have e1 := (h.outEdges_targets u).1.length_eq
    have e2 := congrArg List.length h4
    simp only [List.length_map] at e1 e2
    rw [e2, e1, hun]
    simp only [hs, List.length_map]
    have : outOf false es u = (es.filter fun f => decide (f.1 = u)).map fun f => f.2 := by
      unfold outOf
      rw [← List.filterMap_eq_map, List.filterMap_filter]
      refine List.filterMap_congr fun f _ => ?_
      by_cases hf : f.1 = u <;> simp [hf]
    rw [this, List.length_map]
  have hp : hs.Perm l := (List.subperm_of_subset hnd hsub).perm_of_length_le hlen
  intro e he
  obtain ⟨f, hf, rfl⟩ := List.mem_map.mp (hp.mem_iff.mpr he)
  exact ⟨f, (List.mem_filter.mp hf).1, rfl⟩

/-- The handles of a graph without an edge container, numbered vertices, any kind of out-edge container and any
sequence of calls: `try_add_edge` returned one handle for every accepted call, with its ends and (through
`graph[e]`) its bundle, also after all the later calls; different calls have different handles; in a
directed or bidirectional graph every out-edge and in-edge equals exactly one of the handles returned, which
has the same ends and bundle.  False of undirected graphs: `reverse_handle_fails`,
`inEdges_bundle_misses`. -/
theorem edge_handles_partial (o : OrdersN Int β) (moved : β → β) (dir : Dir) (k : Kind) (n : Nat)
    {calls : List (Int × Int × β)}
    (hok : ∀ e ∈ calls, (0 ≤ e.1 ∧ e.1 < 2 ^ 31 - 1) ∧ 0 ≤ e.2.1 ∧ e.2.1 < 2 ^ 31 - 1)
    (hl : k = .vec → calls.length < 2 ^ 31) :
    ∃ g as hs, (AdjN.init dir k (firstVertices n) : AdjN Int β).tryAddAll o moved calls = some (g, as) ∧
      hs = as.filterMap id ∧
      (hs.map fun h => (h.1, h.2.1, g.bundle h)) =
        ((accept k.unique dir.un [] calls).1.map fun c => (c.1, c.2.1, some c.2.2)) ∧
      hs.Pairwise (fun h h' => sameN h h' = false) ∧
      (∀ h ∈ hs, ∃ l, g.outEdges h.1 = some l ∧ h ∈ l) ∧
      (dir ≠ .undirected → ∀ u l, g.outEdges u = some l ∨ dir = .bidirectional ∧ g.inEdges u = some l →
        ∀ e ∈ l, ∃ h ∈ hs, (∀ h' ∈ hs, sameN e h' = true ↔ h' = h) ∧ h.1 = e.1 ∧ h.2.1 = e.2.1 ∧
          g.bundle e = g.bundle h) := by
  obtain ⟨g, as, es, i1, i2, i3, i4, i5, i6, i7, i8, i9, i10, new, i11, i12⟩ :=
    addAllN_inv grows_grow o moved (NInv.init moved dir k (firstVertices_nodup n)) ⟨n, rfl⟩ hok
      (by simpa using hl)
  have hl' : k = .vec → es.length < 2 ^ 31 := fun hk => by
    have := hl hk; simp only [List.length_nil] at i8; omega
  rw [List.nil_append] at i11
  subst i11
  have hdir : g.dir = dir := i4
  have hb : ∀ f ∈ es, g.bundle (f.1, f.2.1, f.2.2.2) = some f.2.2.1 := by
    intro f hf
    simp only [AdjN.bundle, i2.ids f hf, Option.map_some]
  have hpw : (es.map fun e => (e.1, e.2.1, e.2.2.2)).Pairwise (fun h h' => sameN h h' = false) := by
    have := i2.idn
    rw [List.Nodup, List.pairwise_map] at this
    rw [List.pairwise_map]
    refine this.imp fun h => ?_
    rw [Bool.eq_false_iff, ne_eq, sameN_iff]
    intro ⟨e1, e2⟩
    exact h (Prod.ext e1 e2)
  have hout : dir ≠ .undirected → ∀ u l, g.outEdges u = some l → ∀ e ∈ l,
      e ∈ es.map fun e => (e.1, e.2.1, e.2.2.2) := by
    intro hd u l hu e he
    obtain ⟨f, hf, rfl⟩ := mem_outN_ids i2 hl' (hdir ▸ hd) hu e he
    exact List.mem_map.mpr ⟨f, hf, rfl⟩
  refine ⟨g, as, _, by rw [AdjN.tryAddAll_eq]; exact i1, rfl, ?_, ?_, ?_, ?_⟩
  · rw [i12, List.map_map]
    have e6 : es.map strip = (accept k.unique dir.un [] calls).1 := i6
    rw [← e6, List.map_map]
    refine List.map_congr_left fun f hf => ?_
    simp only [Function.comp_apply, hb f hf]
    rfl
  · rw [i12]; exact hpw
  · rw [i12]
    intro h hh
    obtain ⟨f, hf, rfl⟩ := List.mem_map.mp hh
    obtain ⟨l, h1, -, -, -, h5⟩ := i2.outEdges hl' (i2.closed f hf).1
    exact ⟨l, h1, (h5 _ _).mpr ⟨_, i2.ids f hf⟩⟩
  · intro hd u l hul e he
    rw [i12]
    have hmem : e ∈ es.map fun e => (e.1, e.2.1, e.2.2.2) := by
      rcases hul with hul | ⟨hbi, hul⟩
      · exact hout hd u l hul e he
      · have huv : u ∈ g.vertices := by
          by_contra hc
          simp [AdjN.inEdges, hdir, hbi, Dir.un, hc] at hul
        obtain ⟨m, hm, hp⟩ := i2.inEdges hl' (hdir.trans hbi) huv
        obtain rfl := Option.some.inj (hul.symm.trans hm)
        have := hp.mem_iff.mp he
        rw [List.mem_filter, List.mem_flatMap] at this
        obtain ⟨⟨w, hw, hew⟩, -⟩ := this
        obtain ⟨m', hm', -⟩ := i2.outEdges hl' hw
        rw [hm', Option.getD_some] at hew
        exact hout hd w m' hm' e hew
    refine ⟨e, hmem, ?_, rfl, rfl, rfl⟩
    intro h' hh'
    constructor
    · intro hs
      by_contra hne
      haveI : Std.Symm (fun h h' : EdgeN Int => sameN h h' = false) :=
        ⟨fun a b h => by rw [← h]; exact (sameN_key fun _ => 0).2.1 b a⟩
      have := hpw.forall hmem hh' (Ne.symm hne)
      rw [hs] at this
      exact Bool.noConfusion this
    · rintro rfl
      exact (sameN_key fun _ => 0).1 _

theorem accept_subset {ι : Type} (unique un : Bool) (calls : List (Int × Int × ι)) :
    ∀ (st : List (Int × Int × ι)) {e}, e ∈ (accept unique un st calls).1 → e ∈ st ∨ e ∈ calls := by
  induction calls with
  | nil => intro st e h; exact Or.inl h
  | cons c calls ih =>
    intro st e h
    simp only [accept] at h
    split at h
    · exact (ih _ h).imp id (List.mem_cons_of_mem _)
    · rcases ih _ h with h | h
      · rcases List.mem_append.mp h with h | h
        · exact Or.inl h
        · exact Or.inr (by rw [List.mem_singleton.mp h]; exact List.mem_cons_self ..)
      · exact Or.inr (List.mem_cons_of_mem _ h)

/-- The handles of a graph with an edge container, any direction: every out-edge and in-edge equals exactly one
of the handles returned, that of the call with its ends (in either order if undirected) and bundle. -/
theorem edge_handles_edges {rep : Rep Int R} (o : OrdersC Int R β) (junk : Int) (dir : Dir)
    {hasOut : Bool} (hr : hasOut = false → GoodRep rep dir IsInt) {k ke : Kind} (hk : hasOut = false → k.assoc = false)
    (hke : ke.assoc = false) {n : Nat} (hn : n < 2 ^ 31)
    {calls : List (Int × Int × β)} (hne : n ≠ 0 ∨ calls ≠ [])
    (hok : ∀ e ∈ calls, (0 ≤ e.1 ∧ e.1 < 2 ^ 31 - 1) ∧ 0 ≤ e.2.1 ∧ e.2.1 < 2 ^ 31 - 1)
    (hl : k = .vec ∨ ke = .vec → calls.length < 2 ^ 31) :
    ∃ g as hs, (AdjC.init dir hasOut k ke (firstVertices n) : AdjC Int R β).tryAddAll rep o junk calls =
        some (g, as) ∧
      hs = as.filterMap id ∧
      (hs.map fun h => (h.1, h.2.1, g.bundle h)) =
        ((accept k.unique dir.un [] calls).1.map fun c => (c.1, c.2.1, some c.2.2)) ∧
      hs.Pairwise (fun h h' => sameC h h' = false) ∧
      (∀ h ∈ hs, ∃ l, g.outEdges rep h.1 = some l ∧ h ∈ l) ∧
      (∀ u l, g.outEdges rep u = some l ∨ dir ≠ .directed ∧ g.inEdges rep u = some l →
        ∀ e ∈ l, ∃ h ∈ hs, (∀ h' ∈ hs, sameC e h' = true ↔ h' = h) ∧
          (h.1 = e.1 ∧ h.2.1 = e.2.1 ∨ dir = .undirected ∧ h.1 = e.2.1 ∧ h.2.1 = e.1) ∧
          g.bundle e = g.bundle h) := by
  obtain ⟨g, as, es, h1, h2, h3, h4, h5, ⟨h6, h7, h8⟩, h9, h10, h11, h12, h13⟩ :=
    adjacency_history_edges_partial o junk dir hr hk hke hn hne hok hl
  have hpw : (es.map fun e => (e.1, e.2.1, e.2.2.2)).Pairwise (fun h h' : EdgeN Int => sameC h h' = false) := by
    rw [List.Nodup, List.pairwise_map] at h7
    rw [List.pairwise_map]
    refine h7.imp fun h => ?_
    rw [Bool.eq_false_iff, ne_eq, sameC_iff]
    exact h
  have huniq : ∀ f ∈ es, ∀ e : EdgeN Int, e.2.2 = f.2.2.2 →
      ∀ h' ∈ es.map (fun e => (e.1, e.2.1, e.2.2.2)), sameC e h' = true ↔ h' = (f.1, f.2.1, f.2.2.2) := by
    intro f hf e hef h' hh'
    rw [sameC_iff]
    constructor
    · intro hs
      by_contra hne
      haveI : Std.Symm (fun h h' : EdgeN Int => sameC h h' = false) :=
        ⟨fun a b h => by rw [← h]; exact (sameC_key fun _ => 0).2.1 b a⟩
      have := hpw.forall (List.mem_map.mpr ⟨f, hf, rfl⟩) hh' (Ne.symm hne)
      rw [(sameC_iff _ _).mpr (hef.symm.trans hs)] at this
      exact Bool.noConfusion this
    · rintro rfl
      exact hef
  have hvert : ∀ u l, g.outEdges rep u = some l → u ∈ g.vertices := by
    intro u l hu
    by_contra hc
    simp [AdjC.outEdges, hc] at hu
  have hout : ∀ u l, g.outEdges rep u = some l → ∀ e ∈ l, ∃ f ∈ es, e.2.2 = f.2.2.2 ∧
      (f.1 = e.1 ∧ f.2.1 = e.2.1 ∨ dir = .undirected ∧ f.1 = e.2.1 ∧ f.2.1 = e.1) := by
    intro u l hu e he
    obtain ⟨l', p1, p2, -⟩ := h9 u (hvert u l hu)
    obtain rfl := Option.some.inj (hu.symm.trans p1)
    obtain ⟨d, hd, rfl⟩ := List.mem_map.mp (p2.mem_iff.mp he)
    obtain ⟨f, hf, ⟨q1, rfl⟩ | ⟨q1, q2, q3, rfl⟩⟩ := mem_outOf.mp hd
    · exact ⟨f, hf, rfl, Or.inl ⟨q1, rfl⟩⟩
    · exact ⟨f, hf, rfl, Or.inr ⟨by revert q2; cases dir <;> simp [Dir.un], rfl, q3⟩⟩
  refine ⟨g, as, _, h1, rfl, ?_, by rw [h8]; exact hpw, ?_, ?_⟩
  · rw [h8, List.map_map, ← h6, List.map_map]
    refine List.map_congr_left fun f hf => ?_
    simp only [Function.comp_apply, AdjC.bundle, h13 f hf]
    rfl
  · rw [h8]
    intro h hh
    obtain ⟨f, hf, rfl⟩ := List.mem_map.mp hh
    have hc : strip f ∈ calls := by
      have : strip f ∈ es.map strip := List.mem_map.mpr ⟨f, hf, rfl⟩
      rw [h6] at this
      exact (accept_subset _ _ calls [] this).resolve_left List.not_mem_nil
    have hv : f.1 ∈ g.vertices := by
      rw [h4, mem_firstVertices]
      exact ⟨(hok _ hc).1.1, (h5 _ hc).1⟩
    obtain ⟨l, l1, l2, -⟩ := h9 f.1 hv
    exact ⟨l, l1, l2.mem_iff.mpr (List.mem_map.mpr ⟨(f.2.1, f.2.2), mem_outOf.mpr ⟨f, hf, Or.inl ⟨rfl, rfl⟩⟩,
      rfl⟩)⟩
  · intro u l hul e he
    rw [h8]
    have key : ∃ f ∈ es, e.2.2 = f.2.2.2 ∧
      (f.1 = e.1 ∧ f.2.1 = e.2.1 ∨ dir = .undirected ∧ f.1 = e.2.1 ∧ f.2.1 = e.1) := by
      rcases hul with hul | ⟨hd, hul⟩
      · exact hout u l hul e he
      · have huv : u ∈ g.vertices := by
          by_contra hc
          rcases hun : g.dir.un <;> simp [AdjC.inEdges, AdjC.outEdges, hun, hc] at hul
        rcases dir with _ | _ | _
        · exact absurd rfl hd
        · obtain ⟨m, m1, m2⟩ := (h11 rfl).1 u huv
          obtain rfl := Option.some.inj (hul.symm.trans m2)
          obtain ⟨e', he', rfl⟩ := List.mem_map.mp he
          obtain ⟨f, hf, q1, q2⟩ := hout u m m1 e' he'
          refine ⟨f, hf, q1, ?_⟩
          rcases q2 with q2 | q2
          · exact Or.inr ⟨rfl, q2⟩
          · exact Or.inl q2.2
        · obtain ⟨m, m1, m2⟩ := h10 rfl u huv
          obtain rfl := Option.some.inj (hul.symm.trans m1)
          have := m2.mem_iff.mp he
          rw [List.mem_filter, List.mem_flatMap] at this
          obtain ⟨⟨w, hw, hew⟩, -⟩ := this
          obtain ⟨m', hm', -⟩ := h9 w hw
          rw [hm', Option.getD_some] at hew
          exact hout w m' hm' e hew
    obtain ⟨f, hf, e1, e2⟩ := key
    refine ⟨(f.1, f.2.1, f.2.2.2), List.mem_map.mpr ⟨f, hf, rfl⟩, huniq f hf e e1, e2, ?_⟩
    simp only [AdjC.bundle, e1]

/-- False of undirected graphs without an edge container: an edge seen from its second end never equals the
handle returned for it (nor do the other edges there). -/
theorem reverse_handle_fails (o : OrdersN Int β) (moved : β → β) (k : Kind) (n : Nat)
    {calls : List (Int × Int × β)}
    (hok : ∀ e ∈ calls, (0 ≤ e.1 ∧ e.1 < 2 ^ 31 - 1) ∧ 0 ≤ e.2.1 ∧ e.2.1 < 2 ^ 31 - 1)
    (hl : k = .vec → calls.length < 2 ^ 31) :
    ∃ g as, (AdjN.init .undirected k (firstVertices n) : AdjN Int β).tryAddAll o moved calls = some (g, as) ∧
      ∀ h, some h ∈ as → h.1 ≠ h.2.1 →
        ∃ l, g.outEdges h.2.1 = some l ∧ (∃ e ∈ l, e.2.1 = h.1) ∧ ∀ e ∈ l, sameN e h = false := by
  obtain ⟨g, as, es, i1, i2, i3, i4, i5, i6, i7, i8, i9, i10, new, i11, i12⟩ :=
    addAllN_inv grows_grow o moved (NInv.init moved .undirected k (firstVertices_nodup n)) ⟨n, rfl⟩ hok
      (by simpa using hl)
  have hl' : k = .vec → es.length < 2 ^ 31 := fun hk => by
    have := hl hk; simp only [List.length_nil] at i8; omega
  rw [List.nil_append] at i11
  subst i11
  refine ⟨g, as, by rw [AdjN.tryAddAll_eq]; exact i1, fun h hh hne => ?_⟩
  have hm : h ∈ as.filterMap id := List.mem_filterMap.mpr ⟨some h, hh, rfl⟩
  rw [i12] at hm
  obtain ⟨f, hf, rfl⟩ := List.mem_map.mp hm
  obtain ⟨l, h1, h2, h3, h4, h5⟩ := i2.outEdges hl' (i2.closed f hf).2
  refine ⟨l, h1, ?_, fun e he => ?_⟩
  · have hun : g.dir.un = true := by rw [i4]; rfl
    have : f.1 ∈ (outOf g.dir.un es f.2.1).map Prod.fst :=
      List.mem_map.mpr ⟨(f.1, f.2.2), mem_outOf.mpr ⟨f, hf, Or.inr ⟨hne, hun, rfl, rfl⟩⟩, rfl⟩
    rw [← (i2.outEdges_targets f.2.1).1.mem_iff, ← h4] at this
    exact List.mem_map.mp this
  · rw [Bool.eq_false_iff, ne_eq, sameN_iff]
    rintro ⟨e1, -⟩
    exact hne (e1.symm.trans (h2 e he))

theorem mapM_getElem? {γ δ : Type} {f : γ → Option δ} {l : List γ} :
    ∀ {m : List δ}, l.mapM f = some m → ∀ i : Nat, m[i]? = l[i]?.bind f := by
  induction l with
  | nil => intro m h i; obtain rfl : [] = m := Option.some.inj h; rfl
  | cons a l ih =>
    intro m h i
    rw [List.mapM_cons] at h
    rcases ha : f a with _ | b
    · rw [ha] at h; simp at h
    · rcases hm : l.mapM f with _ | m'
      · rw [ha, hm] at h; simp at h
      · rw [ha, hm] at h
        obtain rfl : b :: m' = m := Option.some.inj h
        cases i with
        | zero => simp [ha]
        | succ i => simpa using ih hm i

/-- False of undirected graphs without an edge container, with vectors of out-edges: the in-edge of `u` from
`v` at position `i` has the bundle of the out-edge of `v` at position `i`, whichever edge that is; the
behaviour is undefined if `v` has not as many. -/
theorem inEdges_bundle_misses (o : OrdersN Int β) (moved : β → β) (n : Nat)
    {calls : List (Int × Int × β)}
    (hok : ∀ e ∈ calls, (0 ≤ e.1 ∧ e.1 < 2 ^ 31 - 1) ∧ 0 ≤ e.2.1 ∧ e.2.1 < 2 ^ 31 - 1)
    (hl : calls.length < 2 ^ 31) :
    ∃ g as, (AdjN.init .undirected .vec (firstVertices n) : AdjN Int β).tryAddAll o moved calls =
        some (g, as) ∧
      ∀ u l, g.inEdges u = some l → ∀ (i : Nat) e, l[i]? = some e →
        ∃ m, g.outEdges e.1 = some m ∧ g.bundle e = m[i]?.bind g.bundle := by
  obtain ⟨g, as, es, i1, i2, i3, i4, i5, i6, i7, i8, i9, i10, new, i11, i12⟩ :=
    addAllN_inv grows_grow o moved (NInv.init moved .undirected .vec (firstVertices_nodup n)) ⟨n, rfl⟩ hok
      (by simpa using hl)
  have hl' : Kind.vec = .vec → es.length < 2 ^ 31 := fun _ => by
    simp only [List.length_nil] at i8; omega
  refine ⟨g, as, by rw [AdjN.tryAddAll_eq]; exact i1, fun u l hul i e he => ?_⟩
  rw [inEdges_undirected i4] at hul
  rcases ho : g.outEdges u with _ | l'
  · rw [ho] at hul; simp at hul
  rw [ho] at hul
  obtain rfl := Option.some.inj hul
  rw [List.getElem?_map, Option.map_eq_some_iff] at he
  obtain ⟨e', he', rfl⟩ := he
  have huv : u ∈ g.vertices := by
    by_contra hc
    simp [AdjN.outEdges, hc] at ho
  have hra : ∀ w, (g.outs w).kind.ra = true := fun w => by rw [i2.kindO w]; rfl
  have hid : e'.2.2 = i := by
    have hfit := i2.fits hl' u
    have hend : (g.outs u).idEnd = (g.outs u).items.length := by
      simp [Cont.idEnd, hra, toInt_of_lt (hfit (hra u))]
    simp only [AdjN.outEdges, huv, not_true_eq_false, if_false, Cont.ids, hra, if_true, hend] at ho
    rw [if_pos (by omega)] at ho
    have h1 := mapM_getElem? ho i
    rw [he'] at h1
    rw [List.getElem?_map] at h1
    rcases hi : (List.range (Int.toNat ↑(g.outs u).items.length))[i]? with _ | j
    · rw [hi] at h1; simp at h1
    · rw [hi] at h1
      have hj : j = i := by
        rw [List.getElem?_eq_some_iff] at hi
        obtain ⟨_, hi⟩ := hi
        simpa using hi.symm
      subst hj
      have h2 : some e' = g.getEdge u (j : Int) := h1
      simp only [AdjN.getEdge] at h2
      obtain ⟨d, -, rfl⟩ := Option.map_eq_some_iff.mp h2.symm
      rfl
  have hev : e'.2.1 ∈ g.vertices := by
    obtain ⟨l'', h1, h2, h3, h4, h5⟩ := i2.outEdges hl' huv
    obtain rfl := Option.some.inj (ho.symm.trans h1)
    have : e'.2.1 ∈ l'.map fun e => e.2.1 := List.mem_map.mpr ⟨e', List.mem_of_getElem? he', rfl⟩
    rw [h4, (i2.outEdges_targets u).1.mem_iff] at this
    obtain ⟨d, hd, hdd⟩ := List.mem_map.mp this
    obtain ⟨f, hf, ⟨-, rfl⟩ | ⟨-, -, -, rfl⟩⟩ := mem_outOf.mp hd
    · rw [← hdd]; exact (i2.closed f hf).2
    · rw [← hdd]; exact (i2.closed f hf).1
  obtain ⟨m, m1, -⟩ := i2.outEdges hl' hev
  refine ⟨m, m1, ?_⟩
  have hb := congrArg (fun l => l[i]?) (outEdges_bundles m1 (i2.out e'.2.1).wf (i2.fits hl' e'.2.1))
  simp only [List.getElem?_map] at hb
  simp only [AdjN.bundle, hid, Cont.at, hra, if_true]
  rw [if_pos (by omega), Int.toNat_natCast]
  rcases hm : m[i]? with _ | f
  · rw [hm] at hb
    rcases hv : (g.outs e'.2.1).values[i]? with _ | d
    · rfl
    · rw [hv] at hb; simp at hb
  · rw [hm] at hb
    rcases hv : (g.outs e'.2.1).values[i]? with _ | d
    · rw [hv] at hb; simp at hb
    · rw [hv] at hb
      simp only [Option.map_some, Option.some.injEq, Prod.mk.injEq] at hb
      exact hb.2.symm

/-! Examples. -/

set_option synthInstance.maxHeartbeats 400000
set_option synthInstance.maxSize 1000

/-- Two edges with the same target, of different sources: their ids in the out-edges are equal. -/
example : sameN (0, 2, 0) ((1, 2, 0) : EdgeN Int) = false ∧ sameC (0, 2, 0) ((2, 0, 0) : EdgeN Int) = true ∧
    lessN (0, 2, 5) ((1, 2, 0) : EdgeN Int) = true := by decide +kernel

/-- The in-edge of `0` from `1` of an undirected graph has the bundle of the edge of `1` and `2`. -/
example : ((AdjN.init .undirected .vec (firstVertices 0)).tryAddAll plainN (fun s => s)
    [(1, 2, "c"), (0, 1, "b")]).map (fun r => (r.2, r.1.inEdges 0, r.1.bundle (1, 0, 0), r.1.bundle (0, 1, 0))) =
    some ([some (1, 2, 0), some (0, 1, 0)], some [(1, 0, 0)], some "c", some "b") := by
  decide +kernel

/-- That of `0` from `2` has none. -/
example : ((AdjN.init .undirected .vec (firstVertices 0)).tryAddAll plainN (fun s => s)
    [(0, 1, "b"), (0, 2, "c")]).map (fun r => (r.1.inEdges 0, r.1.bundle (2, 0, 1))) =
    some (some [(1, 0, 0), (2, 0, 1)], none) := by
  decide +kernel

example : ((AdjC.init .undirected false .vec .vec (firstVertices 0)).tryAddAll xorRep plainC 77
    [(1, 2, "c"), (0, 1, "b")]).map (fun r => (r.2, r.1.inEdges xorRep 0, r.1.bundle (1, 0, 1))) =
    some ([some (1, 2, 0), some (0, 1, 1)], some [(1, 0, 1)], some "b") := by
  decide +kernel

end Actl.Storage
