import Verif.Props.Built

/-! C96: bridges of a graph without an edge container, where the two directions of an edge have nothing in common. -/

namespace Actl.Built

open Actl.Storage Actl.Traversal Actl.Ids

variable {V β R ι : Type}

/-! ### Edges between two vertices -/

/-- The edge has these ends. -/
private def joins (x y : Int) (e : Int × Int × ι) : Bool :=
  decide (e.1 = x ∧ e.2.1 = y) || decide (e.1 = y ∧ e.2.1 = x)

private theorem link_iff_count {es : List (Int × Int × ι)} {x y : Int} :
    Link true es x y ↔ 0 < es.countP (joins x y) := by
  rw [List.countP_pos_iff]
  unfold Link joins
  simp

private theorem outOf_count (es : List (Int × Int × ι)) (x y : Int) :
    ((outOf true es x).map Prod.fst).count y = es.countP (joins x y) := by
  induction es with
  | nil => rfl
  | cons e es ih =>
    unfold outOf at ih ⊢
    rw [List.filterMap_cons, List.countP_cons, ← ih]
    by_cases h1 : e.1 = x
    · simp only [h1, if_true, List.map_cons, List.count_cons]
      congr 1
      unfold joins
      by_cases h2 : e.2.1 = y
      · simp [h1, h2]
      · have : ¬(e.1 = y ∧ e.2.1 = x) := by
          rintro ⟨a, b⟩
          exact h2 (by rw [b, ← h1, a])
        simp [h1, h2]
        intro a b
        exact h2 (by rw [b, a])
    · by_cases h2 : e.2.1 = x
      · simp only [h1, if_false, h2, and_self, if_true, List.map_cons, List.count_cons]
        congr 1
        unfold joins
        simp [h1, h2]
      · simp [h1, h2, joins]

/-! ### Pairing the directions -/

section

variable {G : Graph Int (EdgeN Int)}

/-- The edges from `u` to `v`. -/
private def between (G : Graph Int (EdgeN Int)) (u v : Int) : List (EdgeN Int) :=
  (G.out u).filter fun e => decide (e.2.1 = v)

/-- The `i`-th edge from `u` to `v` and the `i`-th one from `v` to `u` are one edge. -/
private def mate (G : Graph Int (EdgeN Int)) (e : EdgeN Int) : EdgeN Int :=
  if e.1 = e.2.1 then e
  else ((between G e.2.1 e.1)[(between G e.1 e.2.1).idxOf e]?).getD e

/-- What is needed of the graph. -/
private structure Paired (G : Graph Int (EdgeN Int)) : Prop where
  src : ∀ e, G.src e = e.1
  tgt : ∀ e, G.tgt e = e.2.1
  own : ∀ u, ∀ e ∈ G.out u, e.1 = u
  nodup : ∀ u, (G.out u).Nodup
  count : ∀ u v, (between G u v).length = (between G v u).length

private theorem mem_between (h : Paired G) {u v : Int} {e : EdgeN Int} :
    e ∈ between G u v ↔ e ∈ G.out u ∧ e.1 = u ∧ e.2.1 = v := by
  unfold between
  rw [List.mem_filter]
  simp only [decide_eq_true_eq]
  exact ⟨fun ⟨a, b⟩ => ⟨a, h.own u e a, b⟩, fun ⟨a, _, b⟩ => ⟨a, b⟩⟩

private theorem between_nodup (h : Paired G) (u v : Int) : (between G u v).Nodup := (h.nodup u).filter _

private theorem mate_spec (h : Paired G) {u v : Int} (huv : u ≠ v) {e : EdgeN Int} (he : e ∈ between G u v) :
    mate G e ∈ between G v u ∧ mate G (mate G e) = e := by
  obtain ⟨-, a, b⟩ := (mem_between h).mp he
  have hi := List.idxOf_lt_length_of_mem he
  have hi' : (between G u v).idxOf e < (between G v u).length := by rw [← h.count u v]; exact hi
  have hm : mate G e = (between G v u)[(between G u v).idxOf e] := by
    unfold mate
    rw [if_neg (by rw [a, b]; exact huv), a, b, List.getElem?_eq_getElem hi']
    rfl
  have hmem : mate G e ∈ between G v u := by rw [hm]; exact List.getElem_mem _
  refine ⟨hmem, ?_⟩
  obtain ⟨-, c, d⟩ := (mem_between h).mp hmem
  have hidx : (between G v u).idxOf (mate G e) = (between G u v).idxOf e := by
    rw [hm]
    exact (between_nodup h v u).idxOf_getElem _ _
  generalize mate G e = f at *
  unfold mate
  rw [if_neg (by rw [c, d]; exact huv.symm), c, d, hidx, List.getElem?_eq_getElem hi, Option.getD_some]
  exact List.getElem_idxOf hi

private theorem mate_invol (h : Paired G) (e : EdgeN Int) : mate G (mate G e) = e := by
  by_cases hl : e.1 = e.2.1
  · have : mate G e = e := by unfold mate; rw [if_pos hl]
    rw [this, this]
  · by_cases he : e ∈ between G e.1 e.2.1
    · exact (mate_spec h hl he).2
    · have : mate G e = e := by
        unfold mate
        rw [if_neg hl, List.idxOf_eq_length_iff.mpr he, h.count, List.getElem?_eq_none (le_refl _)]
        rfl
      rw [this, this]

private theorem mate_undirected (h : Paired G) : G.Undirected (mate G) := by
  refine ⟨mate_invol h, ?_, ?_, fun u _ => h.nodup u⟩
  · intro u _ e he
    have h1 := h.own u e he
    rw [h.tgt]
    by_cases hl : e.1 = e.2.1
    · have : mate G e = e := by unfold mate; rw [if_pos hl]
      rw [this, ← hl, h1]
    · exact ((mem_between h).mp (mate_spec h (u := u) (v := e.2.1) (by rw [← h1]; exact hl)
        ((mem_between h).mpr ⟨he, h1, rfl⟩)).1).2.2
  · intro u _ e he
    have h1 := h.own u e he
    rw [h.tgt]
    by_cases hl : e.1 = e.2.1
    · have : mate G e = e := by unfold mate; rw [if_pos hl]
      rw [this, ← hl, h1]
      exact he
    · exact ((mem_between h).mp (mate_spec h (u := u) (v := e.2.1) (by rw [← h1]; exact hl)
        ((mem_between h).mpr ⟨he, h1, rfl⟩)).1).1

/-! ### Leaving out an edge -/

private theorem other_iff {γ : Type} {l : List γ} (hn : l.Nodup) {e : γ} (he : e ∈ l) :
    (∃ f ∈ l, f ≠ e) ↔ 2 ≤ l.length := by
  constructor
  · rintro ⟨f, hf, hne⟩
    match l, hn, he, hf with
    | [a], _, he, hf =>
      simp only [List.mem_singleton] at he hf
      exact absurd (hf.trans he.symm) hne
    | a :: b :: l, _, _, _ => simp
  · intro h
    match l, hn, he, h with
    | a :: b :: l, hn, he, _ =>
      simp only [List.nodup_cons, List.mem_cons, not_or] at hn
      by_cases hae : a = e
      · exact ⟨b, by simp, fun hb => hn.1.1 (hae.trans hb.symm)⟩
      · exact ⟨a, by simp, hae⟩

private theorem countP_eraseIdx {γ : Type} (p : γ → Bool) (l : List γ) (i : Nat) (hi : i < l.length) :
    (l.eraseIdx i).countP p + (if p l[i] then 1 else 0) = l.countP p := by
  induction l generalizing i with
  | nil => simp at hi
  | cons a l ih =>
    cases i with
    | zero => simp [List.countP_cons]
    | succ i =>
      have := ih i (by simpa using hi)
      simp only [List.eraseIdx_cons_succ, List.countP_cons, List.getElem_cons_succ]
      omega

private theorem joins_comm (x y : Int) (e : Int × Int × ι) : joins x y e = joins y x e := by
  unfold joins
  rw [Bool.or_comm]

variable {A : List (Int × Int × ι)}

/-- Leaving out the `i`-th edge of the list is leaving out any edge with the same, different ends. -/
private theorem without_iff (h : Paired G) (hc : ∀ x y, (between G x y).length = A.countP (joins x y))
    (i : Nat) (hi : i < A.length) (hl : A[i].1 ≠ A[i].2.1) {u v : Int} (hj : joins u v A[i] = true)
    {e : EdgeN Int} (he : e ∈ between G u v) (x y : Int) :
    G.AdjWithout (mate G) e x y ↔ Link true (A.eraseIdx i) x y := by
  have huv : u ≠ v := by
    intro huv
    unfold joins at hj
    simp only [huv, Bool.or_self, decide_eq_true_eq] at hj
    exact hl (hj.1.trans hj.2.symm)
  have hm := (mate_spec h huv he).1
  obtain ⟨e1, e2, e3⟩ := (mem_between h).mp he
  obtain ⟨m1, m2, m3⟩ := (mem_between h).mp hm
  rw [link_iff_count]
  have hcount := countP_eraseIdx (joins x y) A i hi
  rw [← hc] at hcount
  have hadj : G.AdjWithout (mate G) e x y ↔ ∃ f ∈ between G x y, f ≠ e ∧ f ≠ mate G e := by
    unfold Graph.AdjWithout
    constructor
    · rintro ⟨f, a, b, c⟩
      exact ⟨f, (mem_between h).mpr ⟨a, h.own x f a, by rw [← h.tgt]; exact b⟩, c⟩
    · rintro ⟨f, a, c⟩
      obtain ⟨a1, a2, a3⟩ := (mem_between h).mp a
      exact ⟨f, a1, by rw [h.tgt]; exact a3, c⟩
  rw [hadj]
  by_cases h1 : x = u ∧ y = v
  · obtain ⟨rfl, rfl⟩ := h1
    rw [hj, if_pos rfl] at hcount
    have : (∃ f ∈ between G x y, f ≠ e ∧ f ≠ mate G e) ↔ ∃ f ∈ between G x y, f ≠ e := by
      constructor
      · rintro ⟨f, a, b, -⟩
        exact ⟨f, a, b⟩
      · rintro ⟨f, a, b⟩
        refine ⟨f, a, b, fun hf => huv ?_⟩
        rw [← ((mem_between h).mp a).2.1, hf, m2]
    rw [this, other_iff (between_nodup h x y) he]
    omega
  · by_cases h2 : x = v ∧ y = u
    · obtain ⟨rfl, rfl⟩ := h2
      rw [joins_comm, hj, if_pos rfl] at hcount
      have : (∃ f ∈ between G x y, f ≠ e ∧ f ≠ mate G e) ↔ ∃ f ∈ between G x y, f ≠ mate G e := by
        constructor
        · rintro ⟨f, a, -, b⟩
          exact ⟨f, a, b⟩
        · rintro ⟨f, a, b⟩
          refine ⟨f, a, fun hf => huv ?_, b⟩
          rw [← ((mem_between h).mp a).2.1, hf, e2]
      rw [this, other_iff (between_nodup h x y) hm]
      omega
    · have hno : joins x y A[i] = false := by
        rw [Bool.eq_false_iff]
        intro hxy
        unfold joins at hj hxy
        simp only [Bool.or_eq_true, decide_eq_true_eq] at hj hxy
        rcases hj with ⟨a, b⟩ | ⟨a, b⟩ <;> rcases hxy with ⟨c, d⟩ | ⟨c, d⟩
        · exact h1 ⟨c.symm.trans a, d.symm.trans b⟩
        · exact h2 ⟨d.symm.trans b, c.symm.trans a⟩
        · exact h2 ⟨c.symm.trans a, d.symm.trans b⟩
        · exact h1 ⟨d.symm.trans b, c.symm.trans a⟩
      rw [hno] at hcount
      simp only [Bool.false_eq_true, if_false, add_zero] at hcount
      rw [hcount, List.length_pos_iff_exists_mem]
      constructor
      · rintro ⟨f, a, -⟩
        exact ⟨f, a⟩
      · rintro ⟨f, a⟩
        obtain ⟨-, a2, a3⟩ := (mem_between h).mp a
        refine ⟨f, a, fun hf => h1 ?_, fun hf => h2 ?_⟩
        · rw [← a2, ← a3, hf]
          exact ⟨e2, e3⟩
        · rw [← a2, ← a3, hf]
          exact ⟨m2, m3⟩

/-- Leaving out a loop disconnects nothing. -/
private theorem path_loop (i : Nat) (hi : i < A.length) (hl : A[i].1 = A[i].2.1) {u v : Int} :
    Path true (A.eraseIdx i) u v ↔ Path true A u v := by
  constructor
  · intro hp
    refine Relation.ReflTransGen.mono (r := Link true (A.eraseIdx i)) (p := Link true A) ?_ _ _ hp
    rintro x y ⟨e, he, hc⟩
    exact ⟨e, List.mem_of_mem_eraseIdx he, hc⟩
  · intro hp
    induction hp with
    | refl => exact .refl
    | @tail x y _ hlink ih =>
      by_cases hxy : x = y
      · rw [← hxy]; exact ih
      · refine ih.tail ?_
        rw [link_iff_count] at hlink ⊢
        have := countP_eraseIdx (joins x y) A i hi
        have hno : joins x y A[i] = false := by
          rw [Bool.eq_false_iff]
          intro hj
          unfold joins at hj
          simp only [Bool.or_eq_true, decide_eq_true_eq] at hj
          rcases hj with ⟨a, b⟩ | ⟨a, b⟩
          · exact hxy (by rw [← a, ← b, hl])
          · exact hxy (by rw [← a, ← b, hl])
        rw [hno] at this
        simp only [Bool.false_eq_true, if_false, add_zero] at this
        omega

end

/-! ### The theorem -/

private theorem path_symm {es : List (Int × Int × ι)} {u v : Int} (h : Path true es u v) : Path true es v u := by
  induction h with
  | refl => exact .refl
  | tail _ hl ih =>
    refine .head ?_ ih
    obtain ⟨e, he, hc⟩ := hl
    refine ⟨e, he, ?_⟩
    rcases hc with ⟨a, b⟩ | ⟨-, a, b⟩
    · exact Or.inr ⟨rfl, a, b⟩
    · exact Or.inl ⟨a, b⟩

private theorem joins_iff {x y : Int} {e : Int × Int × ι} {γ : Type} {d : Int × Int × γ} (h1 : d.1 = x) (h2 : d.2.1 = y) :
    joins x y e = true ↔ ends true d = ends true e := by
  have h : ends true d = ends true ((d.1, d.2.1, e.2.2) : Int × Int × ι) := rfl
  rw [h, ends_eq_iff]
  unfold joins
  simp only [Bool.or_eq_true, decide_eq_true_eq, h1, h2]
  constructor
  · rintro (⟨a, b⟩ | ⟨a, b⟩)
    · exact Or.inl ⟨a.symm, b.symm⟩
    · exact Or.inr ⟨trivial, b.symm, a.symm⟩
  · rintro (⟨a, b⟩ | ⟨-, a, b⟩)
    · exact Or.inl ⟨a.symm, b.symm⟩
    · exact Or.inr ⟨b.symm, a.symm⟩

/-- **C96** An undirected graph without an edge container, built by any sequence of calls.  The edges are the calls
accepted (all calls, or with a unique container those not between the ends of an earlier one).  `find_bridges` ends;
it outputs an edge with the ends of the `i`-th accepted call, in one direction and once, just if without this call
there is no path between these ends; its component map equates two vertices just if there is a path along the accepted
calls, whichever one of them is left out. -/
theorem bridges_builtN (o : OrdersN Int β) (moved : β → β) (k : Kind) (n : Nat)
    {calls : List (Int × Int × β)} (hne : n ≠ 0 ∨ calls ≠ [])
    (hok : ∀ e ∈ calls, (0 ≤ e.1 ∧ e.1 < 2 ^ 31 - 1) ∧ 0 ≤ e.2.1 ∧ e.2.1 < 2 ^ 31 - 1)
    (hl : k = .vec → calls.length < 2 ^ 31) (map : Int → Int) (A : List (Int × Int × β))
    (hA : A = (accept k.unique true [] calls).1) :
    ∃ g as, (AdjN.init .undirected k (firstVertices n) : AdjN Int β).tryAddAll o moved calls = some (g, as) ∧
      (∃ fuel r, findBridges g.graph (!k.unique) fuel map = some r) ∧
      ∀ fuel bridges comp, findBridges g.graph (!k.unique) fuel map = some (bridges, comp) →
        (∀ (i : Nat) (hi : i < A.length), ((∃ e ∈ bridges, ends true e = ends true A[i]) ↔
          ¬Path true (A.eraseIdx i) A[i].1 A[i].2.1)) ∧
        (∀ e ∈ bridges, ∃ d ∈ A, ends true e = ends true d) ∧ (bridges.map (ends true)).Nodup ∧
        ∀ u v : Int, 0 ≤ u ∧ u < vertexCount n calls → 0 ≤ v ∧ v < vertexCount n calls →
          (comp u = comp v ↔ Path true A u v ∧ ∀ i < A.length, Path true (A.eraseIdx i) u v) := by
  subst hA
  obtain ⟨g, as, h1, -, -, h4, -, h6, -, h8, -⟩ := adjacency_history_partial o moved .undirected k n hne hok hl
  obtain ⟨g', as', h1', hs⟩ := graphN_shows o moved .undirected k n hne hok hl
  obtain ⟨rfl, rfl⟩ : g' = g ∧ as' = as := by
    have := h1'.symm.trans h1
    simp only [Option.some.injEq, Prod.mk.injEq] at this
    exact this
  have hun : Dir.un .undirected = true := rfl
  rw [hun] at h6 hs
  refine ⟨g', as', h1, ?_⟩
  have hlink : ∀ x y, Link true (accept k.unique true [] calls).1 x y ↔ Link true calls x y := by
    intro x y
    rw [accept_link, List.nil_append]
  have hun' : k.unique = true → ((accept k.unique true [] calls).1.map (ends true)).Nodup := by
    intro hq
    rw [hq]
    exact accept_unique true calls [] (by simp)
  generalize (accept k.unique true [] calls).1 = A at *
  have hout : ∀ u, u ∉ g'.vertices → g'.graph.out u = [] := by
    intro u hu
    simp [AdjN.graph, AdjN.outEdges, hu]
  have hc : ∀ x y, (between g'.graph x y).length = A.countP (joins x y) := by
    intro x y
    by_cases hx : x ∈ g'.vertices
    · obtain ⟨l, p1, -, -, p4, -⟩ := h6 x hx
      have hg : g'.graph.out x = l := by simp [AdjN.graph, p1]
      rw [← outOf_count, ← p4.count_eq, List.count, List.countP_map, between, hg, ← List.countP_eq_length_filter]
      rfl
    · rw [between, hout x hx]
      by_contra hne'
      have : 0 < A.countP (joins x y) := Nat.pos_of_ne_zero (fun h => hne' (by rw [h]; rfl))
      rw [← link_iff_count, hlink, ← hs.adj] at this
      obtain ⟨e, he, -⟩ := this
      rw [hout x hx] at he
      cases he
  have hP : Paired g'.graph := by
    refine ⟨fun _ => rfl, fun _ => rfl, ?_, ?_, ?_⟩
    · intro u e he
      by_cases hu : u ∈ g'.vertices
      · exact hs.wf.src u hu e he
      · rw [hout u hu] at he
        cases he
    · intro u
      by_cases hu : u ∈ g'.vertices
      · obtain ⟨l, p1, -, p3, -⟩ := h6 u hu
        have hg : g'.graph.out u = l := by simp [AdjN.graph, p1]
        rw [hg]
        exact List.Nodup.of_map _ p3
      · rw [hout u hu]
        exact List.nodup_nil
    · intro u v
      rw [hc, hc]
      congr 1
      funext e
      exact joins_comm u v e
  have hone : ∀ x y : Int, ((between g'.graph x y).length ≤ 1) → ∀ e ∈ between g'.graph x y,
      ∀ f ∈ between g'.graph x y, e = f := by
    intro x y hle e he f hf
    by_contra hne'
    have := (other_iff (between_nodup hP x y) he).mp ⟨f, hf, fun h => hne' h.symm⟩
    omega
  have hS : (!k.unique) = false → g'.graph.Simple := by
    intro hq u hu e he f hf heq _
    have hq : k.unique = true := by simpa using hq
    have h1 := hP.own u e he
    have h2 := hP.own u f hf
    have ht : e.2.1 = f.2.1 := heq
    refine hone u e.2.1 ?_ e ((mem_between hP).mpr ⟨he, h1, rfl⟩) f ((mem_between hP).mpr ⟨hf, h2, ht.symm⟩)
    rw [hc]
    have := List.nodup_iff_count_le_one.mp (hun' hq) (ends true e)
    rw [List.count, List.countP_map] at this
    refine le_trans (le_of_eq ?_) this
    congr 1
    funext d
    rw [Bool.eq_iff_iff, joins_iff h1 rfl]
    simp only [Function.comp_apply, beq_iff_eq]
    exact eq_comm
  have hU := mate_undirected hP
  have hvert : ∀ {x y e}, e ∈ between g'.graph x y → x ∈ g'.graph.vertices := by
    intro x y e he
    by_contra hx
    have := ((mem_between hP).mp he).1
    rw [hout x hx] at this
    cases this
  have hexists : ∀ (i : Nat) (hi : i < A.length) (x y : Int), joins x y A[i] = true →
      ∃ e, e ∈ between g'.graph x y := by
    intro i hi x y hj
    rw [← List.length_pos_iff_exists_mem, hc, List.countP_pos_iff]
    exact ⟨_, List.getElem_mem hi, hj⟩
  have hcall : ∀ {x y e}, e ∈ between g'.graph x y → ∃ i, ∃ hi : i < A.length, joins x y A[i] = true := by
    intro x y e he
    have := List.length_pos_of_mem he
    rw [hc, List.countP_pos_iff] at this
    obtain ⟨d, hd, hj⟩ := this
    obtain ⟨i, hi, rfl⟩ := List.getElem_of_mem hd
    exact ⟨i, hi, hj⟩
  -- leaving out
  have hwo : ∀ (i : Nat) (hi : i < A.length), ∀ {u v e}, joins u v A[i] = true → e ∈ between g'.graph u v →
      ∀ x y, g'.graph.ReachWithout (mate g'.graph) e x y ↔ Path true (A.eraseIdx i) x y := by
    intro i hi u v e hj he x y
    by_cases hloop : A[i].1 = A[i].2.1
    · rw [path_loop i hi hloop]
      have huv : u = v := by
        unfold joins at hj
        simp only [Bool.or_eq_true, decide_eq_true_eq] at hj
        rcases hj with ⟨a, b⟩ | ⟨a, b⟩
        · rw [← a, ← b, hloop]
        · rw [← a, ← b, hloop]
      obtain ⟨e1, e2, e3⟩ := (mem_between hP).mp he
      have hm : mate g'.graph e = e := by
        unfold mate
        rw [if_pos (by rw [e2, e3, huv])]
      constructor
      · intro hr
        refine Relation.ReflTransGen.mono (r := g'.graph.AdjWithout (mate g'.graph) e) (p := Link true A) ?_ _ _ hr
        rintro a b ⟨f, f1, f2, -⟩
        rw [hlink, ← hs.adj]
        exact ⟨f, f1, f2⟩
      · intro hp
        induction hp with
        | refl => exact .refl
        | @tail a b _ hab ih =>
          by_cases h : a = b
          · rw [← h]; exact ih
          · refine ih.tail ?_
            rw [hlink, ← hs.adj] at hab
            obtain ⟨f, f1, f2⟩ := hab
            have hne' : f ≠ e := by
              rintro rfl
              refine h ?_
              rw [← hP.own a f f1, ← f2, hP.tgt, e2, e3, huv]
            exact ⟨f, f1, f2, hne', by rw [hm]; exact hne'⟩
    · unfold Graph.ReachWithout Path
      have : g'.graph.AdjWithout (mate g'.graph) e = Link true (A.eraseIdx i) := by
        funext a b
        exact propext (without_iff hP hc i hi hloop hj he a b)
      rw [this]
  obtain ⟨b1, b2⟩ := findBridges_spec (par := !k.unique) hs.wf hU hS map
  refine ⟨b1, fun fuel bridges comp hb => ?_⟩
  obtain ⟨c1, c2, c3, c4, c5, -⟩ := b2 fuel bridges comp hb
  have hbr : ∀ e ∈ bridges, e ∈ between g'.graph e.1 e.2.1 := by
    intro e he
    obtain ⟨u, hu, h⟩ := c2 e he
    have := hP.own u e h
    exact (mem_between hP).mpr ⟨by rw [this]; exact h, rfl, rfl⟩
  -- a bridge is the only edge between its ends
  have hbridge : ∀ (i : Nat) (hi : i < A.length), ∀ e, joins e.1 e.2.1 A[i] = true →
      e ∈ between g'.graph e.1 e.2.1 →
      (g'.graph.Bridge (mate g'.graph) e ↔ ¬Path true (A.eraseIdx i) A[i].1 A[i].2.1) := by
    intro i hi e hj he
    unfold Graph.Bridge
    rw [hwo i hi hj he, hP.src, hP.tgt]
    unfold joins at hj
    simp only [Bool.or_eq_true, decide_eq_true_eq] at hj
    rcases hj with ⟨a, b⟩ | ⟨a, b⟩
    · rw [a, b]
    · rw [a, b]
      exact not_congr ⟨path_symm, path_symm⟩
  have hmate : ∀ e, e ∈ between g'.graph e.1 e.2.1 → ends true (mate g'.graph e) = ends true e := by
    intro e he
    by_cases hloop : e.1 = e.2.1
    · unfold mate
      rw [if_pos hloop]
    · obtain ⟨-, a, b⟩ := (mem_between hP).mp (mate_spec hP hloop he).1
      exact ends_eq_iff.mpr (Or.inr ⟨rfl, a, b⟩)
  refine ⟨fun i hi => ⟨?_, ?_⟩, fun e he => ?_, ?_, fun u v hu hv => ?_⟩
  · rintro ⟨e, he, hee⟩
    have hj := (joins_iff (d := e) (e := A[i]) rfl rfl).mpr hee
    have hbe := hbr e he
    exact (hbridge i hi e hj hbe).mp ((c1 e.1 (hvert hbe) e ((mem_between hP).mp hbe).1).mp (Or.inl he))
  · intro hno
    obtain ⟨e, he⟩ := hexists i hi A[i].1 A[i].2.1 (by simp [joins])
    obtain ⟨e1, e2, e3⟩ := (mem_between hP).mp he
    have hj : joins e.1 e.2.1 A[i] = true := by rw [e2, e3]; simp [joins]
    have he' : e ∈ between g'.graph e.1 e.2.1 := by rw [e2, e3]; exact he
    have hee := (joins_iff (d := e) (e := A[i]) rfl rfl).mp hj
    rcases (c1 _ (hvert he) e e1).mpr ((hbridge i hi e hj he').mpr hno) with h | h
    · exact ⟨e, h, hee⟩
    · exact ⟨_, h, (hmate e he').trans hee⟩
  · obtain ⟨i, hi, hj⟩ := hcall (hbr e he)
    exact ⟨_, List.getElem_mem hi, (joins_iff rfl rfl).mp hj⟩
  · refine (List.nodup_map_iff_inj_on c3).mpr ?_
    intro e he f hf hef
    have hbe := hbr e he
    have hbf := hbr f hf
    obtain ⟨i, hi, hj⟩ := hcall hbe
    have hno := (hbridge i hi e hj hbe).mp ((c1 e.1 (hvert hbe) e ((mem_between hP).mp hbe).1).mp (Or.inl he))
    have hle : ∀ x y : Int, joins x y A[i] = true → (between g'.graph x y).length ≤ 1 := by
      intro x y hxy
      by_contra hgt
      have := countP_eraseIdx (joins x y) A i hi
      rw [← hc, hxy, if_pos rfl] at this
      have hpos : 0 < (A.eraseIdx i).countP (joins x y) := by omega
      rw [← link_iff_count] at hpos
      have hp : Path true (A.eraseIdx i) x y := .single hpos
      apply hno
      unfold joins at hxy
      simp only [Bool.or_eq_true, decide_eq_true_eq] at hxy
      rcases hxy with ⟨a, b⟩ | ⟨a, b⟩
      · rw [a, b]; exact hp
      · rw [a, b]; exact path_symm hp
    rcases ends_eq_iff.mp hef with ⟨a, b⟩ | ⟨-, a, b⟩
    · exact hone _ _ (hle _ _ hj) e hbe f (by rw [a, b]; exact hbf)
    · have hloop : e.1 ≠ e.2.1 := by
        intro hl'
        apply hno
        unfold joins at hj
        simp only [Bool.or_eq_true, decide_eq_true_eq] at hj
        have : A[i].1 = A[i].2.1 := by
          rcases hj with ⟨a, b⟩ | ⟨a, b⟩ <;> rw [a, b, hl']
        rw [this]
        exact .refl
      have hm := (mate_spec hP hloop hbe).1
      have : mate g'.graph e = f := hone _ _ (hle _ _ (by rw [joins_comm]; exact hj)) _ hm f (by rw [a, b]; exact hbf)
      exact absurd (this ▸ hf) (c4 e he)
  · rw [c5 u ((hs.mem u).mpr hu) v ((hs.mem v).mpr hv)]
    unfold Graph.TwoEdgeConnected
    have hreach : g'.graph.Reach u v ↔ Path true A u v := by
      rw [hs.reach]
      have : Link true A = Link true calls := by
        funext x y
        exact propext (hlink x y)
      unfold Path
      rw [this]
    rw [hreach]
    refine and_congr_right fun _ => ⟨fun h i hi => ?_, fun h w hw e he => ?_⟩
    · obtain ⟨e, he⟩ := hexists i hi A[i].1 A[i].2.1 (by simp [joins])
      rw [← hwo i hi (by simp [joins]) he]
      exact h _ (hvert he) e ((mem_between hP).mp he).1
    · have hbe : e ∈ between g'.graph w e.2.1 := (mem_between hP).mpr ⟨he, hP.own w e he, rfl⟩
      obtain ⟨i, hi, hj⟩ := hcall hbe
      rw [hwo i hi hj hbe]
      exact h i hi

/-! Examples: a triangle with a double edge hanging on it and a bridge behind; with a unique container the double edge
is one edge and a bridge. -/

def moreCalls : List (Int × Int × String) :=
  [(0, 1, "a"), (1, 2, "b"), (2, 0, "c"), (2, 3, "d"), (3, 2, "e"), (4, 3, "f"), (4, 4, "g")]

example := bridges_builtN plainN (fun _ => "") .vec 2 (calls := moreCalls) (by decide) (by decide +kernel)
  (by intro _; decide) (fun _ => 7) _ rfl

set_option synthInstance.maxHeartbeats 400000
set_option synthInstance.maxSize 1000

example : (((AdjN.init .undirected .vec (firstVertices 2)).tryAddAll plainN (fun _ => "") moreCalls).bind fun r =>
    (findBridges r.1.graph true 40 (fun _ => 7)).map fun q => (q.1.map fun e => (e.1, e.2.1), [0, 1, 2, 3, 4].map q.2)) =
    some ([(3, 4)], [1, 1, 1, 1, 0]) := by decide +kernel
example : (((AdjN.init .undirected .set (firstVertices 2)).tryAddAll plainN (fun _ => "") moreCalls).bind fun r =>
    (findBridges r.1.graph false 40 (fun _ => 7)).map fun q => (q.1.map fun e => (e.1, e.2.1), [0, 1, 2, 3, 4].map q.2)) =
    some ([(3, 4), (2, 3)], [2, 2, 2, 1, 0]) := by decide +kernel

end Actl.Built
