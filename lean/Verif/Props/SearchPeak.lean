import Verif.Props.Linear

/-!
# C113: the memory of the searches exactly

* `dfs_depth_exact`: the greatest size of the stack is the greatest number of tree edges that were started and not yet finished.
* `bfs_width_exact`: the greatest size of the queue is the greatest number of vertices that were discovered and not yet started.
-/

namespace Actl.Traversal

variable {σ V E : Type}

/-- How far a counter has come after the events, which goes up with some and down with others. -/
def level (up down : Event V E → Bool) : Nat → List (Event V E) → Nat
  | n, [] => n
  | n, ev :: l => level up down (if up ev then n + 1 else if down ev then n - 1 else n) l

/-- The greatest value of the counter, at the beginning or after some of the events. -/
def peak (up down : Event V E → Bool) : Nat → List (Event V E) → Nat
  | n, [] => n
  | n, ev :: l => max n (peak up down (if up ev then n + 1 else if down ev then n - 1 else n) l)

def isTreeStart : Event V E → Bool
  | .treeStart _ => true
  | _ => false

def isTreeFinish : Event V E → Bool
  | .treeFinish _ => true
  | _ => false

def isDiscover : Event V E → Bool
  | .discover _ => true
  | _ => false

def isStart : Event V E → Bool
  | .start _ => true
  | _ => false

/-- The counter is this high after some of the events, and never higher. -/
theorem peak_spec (up down : Event V E → Bool) : ∀ (l : List (Event V E)) (n : Nat),
    (∃ p, p <+: l ∧ level up down n p = peak up down n l) ∧ ∀ p, p <+: l → level up down n p ≤ peak up down n l
  | [], n => ⟨⟨[], List.prefix_refl _, rfl⟩, fun p hp => by rw [List.prefix_nil.mp hp]; exact le_refl _⟩
  | ev :: l, n => by
    obtain ⟨⟨p, h1, h2⟩, h3⟩ := peak_spec up down l (if up ev then n + 1 else if down ev then n - 1 else n)
    constructor
    · rcases le_total n (peak up down (if up ev then n + 1 else if down ev then n - 1 else n) l) with h | h
      · refine ⟨ev :: p, (List.prefix_cons_inj ev).mpr h1, ?_⟩
        rw [level, peak, h2, max_eq_right h]
      · exact ⟨[], List.nil_prefix, by rw [level, peak, max_eq_left h]⟩
    · intro q hq
      rcases List.prefix_cons_iff.mp hq with rfl | ⟨t, rfl, ht⟩
      · rw [level, peak]; exact le_max_left _ _
      · rw [level, peak]; exact le_trans (h3 t ht) (le_max_right _ _)

theorem le_peak (up down : Event V E → Bool) (n : Nat) (l : List (Event V E)) : n ≤ peak up down n l := by
  cases l with
  | nil => exact le_refl _
  | cons ev l => exact le_max_left _ _

theorem peak_append (up down : Event V E → Bool) (l' : List (Event V E)) : ∀ (l : List (Event V E)) (n : Nat),
    peak up down n (l ++ l') = max (peak up down n l) (peak up down (level up down n l) l')
  | [], n => (max_eq_right (le_peak up down n l')).symm
  | ev :: l, n => by
    rw [List.cons_append, peak, peak, level, peak_append up down l' l, max_assoc]

theorem level_append (up down : Event V E → Bool) (l' : List (Event V E)) : ∀ (l : List (Event V E)) (n : Nat),
    level up down n (l ++ l') = level up down (level up down n l) l'
  | [], _ => rfl
  | ev :: l, n => by rw [List.cons_append, level, level, level_append up down l' l]

variable {G : Graph V E} {c : Comp σ V E}

theorem on_log (a : Comp σ V E) {ev : Event V E} (h : ∀ v, ev ≠ .init v) (s : σ) (l : List (Event V E)) :
    (a.fst logger).on ev (s, l) = (a.on ev s, l ++ [ev]) := by
  cases ev <;> first | rfl | exact absurd rfl (h _)

/-! ### Depth-first search -/

theorem loopDepth_exact : ∀ (fuel : Nat) (u : V) (es : List E) (stack : List (V × List E)) (s : σ) (log : List (Event V E)) r d,
    loopDepth G (c.fst logger) (fun _ => false) fuel u es stack (s, log) = some (r, d) →
    ∃ l, r.1.2 = log ++ l ∧ d = peak isTreeStart isTreeFinish stack.length l
  | 0, _, _, _, _, _, _, _, h => by cases h
  | fuel + 1, u, [], stack, s, log, r, d, h => by
    match stack, h with
    | [], h =>
      simp only [loopDepth, Option.some.injEq, Prod.mk.injEq] at h
      obtain ⟨h1, h2⟩ := h
      exact ⟨[.finish u], by rw [← h1]; rfl, by rw [← h2]; simp [peak, isTreeStart, isTreeFinish]⟩
    | (_, []) :: _, h => simp [loopDepth] at h
    | (w, e :: es) :: stack', h =>
      rw [loopDepth] at h
      change (loopDepth G (c.fst logger) (fun _ => false) fuel w es stack'
          (c.on (.treeFinish e) (c.on (.finish u) s), log ++ [.finish u] ++ [.treeFinish e])).map
            (fun r => (r.1, max ((w, e :: es) :: stack').length r.2)) = some (r, d) at h
      cases hr : loopDepth G (c.fst logger) (fun _ => false) fuel w es stack'
          (c.on (.treeFinish e) (c.on (.finish u) s), log ++ [.finish u] ++ [.treeFinish e]) with
      | none => rw [hr] at h; cases h
      | some x =>
        rw [hr] at h
        simp only [Option.map_some, Option.some.injEq, Prod.mk.injEq] at h
        obtain ⟨h1, h2⟩ := h
        obtain ⟨l, l1, l2⟩ := loopDepth_exact fuel _ _ _ _ _ x.1 x.2 hr
        refine ⟨.finish u :: .treeFinish e :: l, by rw [← h1, l1]; simp, ?_⟩
        rw [← h2, l2]
        simp [peak, isTreeStart, isTreeFinish]
  | fuel + 1, u, e :: es, stack, s, log, r, d, h => by
    rw [loopDepth] at h
    by_cases hd : (c.fst logger).disc (s, log) (G.tgt e) = true
    · rw [if_pos hd, on_log c (by intro v; simp)] at h
      cases hr : loopDepth G (c.fst logger) (fun _ => false) fuel u es stack (c.on (.nonTree e) s, log ++ [.nonTree e]) with
      | none => rw [hr] at h; cases h
      | some x =>
        rw [hr] at h
        simp only [Option.map_some, Option.some.injEq, Prod.mk.injEq] at h
        obtain ⟨h1, h2⟩ := h
        obtain ⟨l, l1, l2⟩ := loopDepth_exact fuel _ _ _ _ _ x.1 x.2 hr
        refine ⟨.nonTree e :: l, by rw [← h1, l1]; simp, ?_⟩
        rw [← h2, l2]
        simp [peak, isTreeStart, isTreeFinish]
    · rw [if_neg hd] at h
      simp only [Bool.false_eq_true, if_false] at h
      change (loopDepth G (c.fst logger) (fun _ => false) fuel (G.tgt e) (G.out (G.tgt e)) ((u, e :: es) :: stack)
          (c.on (.start (G.tgt e)) (c.on (.discover (G.tgt e)) (c.on (.treeStart e) s)),
            log ++ [.treeStart e] ++ [.discover (G.tgt e)] ++ [.start (G.tgt e)])).map
              (fun r => (r.1, max stack.length r.2)) = some (r, d) at h
      cases hr : loopDepth G (c.fst logger) (fun _ => false) fuel (G.tgt e) (G.out (G.tgt e)) ((u, e :: es) :: stack)
          (c.on (.start (G.tgt e)) (c.on (.discover (G.tgt e)) (c.on (.treeStart e) s)),
            log ++ [.treeStart e] ++ [.discover (G.tgt e)] ++ [.start (G.tgt e)]) with
      | none => rw [hr] at h; cases h
      | some x =>
        rw [hr] at h
        simp only [Option.map_some, Option.some.injEq, Prod.mk.injEq] at h
        obtain ⟨h1, h2⟩ := h
        obtain ⟨l, l1, l2⟩ := loopDepth_exact fuel _ _ _ _ _ x.1 x.2 hr
        refine ⟨.treeStart e :: .discover (G.tgt e) :: .start (G.tgt e) :: l, by rw [← h1, l1]; simp, ?_⟩
        rw [← h2, l2]
        have := le_peak isTreeStart isTreeFinish (stack.length + 1) l
        simp only [peak, isTreeStart, isTreeFinish, List.length_cons, Bool.false_eq_true, if_false, if_true]
        omega

/-- **C113** The greatest number of contexts on the stack of a depth-first search is the greatest number of tree edges that were started
and not yet finished, as the events tell. -/
theorem dfs_depth_exact (flags : V → Bool) (fuel : Nat) (s : V) {flags' : V → Bool} {l : List (Event V E)} {n : Nat} [DecidableEq V]
    (h : visitDepth G (discoveredFlag.fst logger) (fun _ => false) fuel s
      (initAll (discoveredFlag.fst logger) G.vertices (flags, [])) = some ((flags', l), n)) :
    n = peak isTreeStart isTreeFinish 0 l := by
  unfold visitDepth at h
  simp only [Bool.false_eq_true, if_false] at h
  have hi : initAll (discoveredFlag.fst logger : Comp _ V E) G.vertices (flags, []) =
      ((initAll (discoveredFlag.fst logger : Comp _ V E) G.vertices (flags, [])).1, []) := by
    refine Prod.ext rfl ?_
    rw [initAll_snd _ (fun _ _ => rfl)]
  rw [hi] at h
  generalize (initAll (discoveredFlag.fst logger : Comp _ V E) G.vertices (flags, [])).1 = f0 at h
  split at h
  · cases h
  · rename_i s' w m hl
    obtain ⟨l', l1, l2⟩ := loopDepth_exact fuel s (G.out s) []
      ((discoveredFlag : Comp _ V E).on (.start s) ((discoveredFlag : Comp _ V E).on (.discover s)
        ((discoveredFlag : Comp _ V E).on (.searchStart s) f0)))
      ([] ++ [.searchStart s] ++ [.discover s] ++ [.start s]) _ _ hl
    simp only [Option.some.injEq, Prod.mk.injEq] at h
    obtain ⟨h1, rfl⟩ := h
    obtain ⟨f, lg⟩ := s'
    rw [on_log _ (by intro v; simp)] at h1
    dsimp only at l1
    obtain ⟨-, rfl⟩ := Prod.mk.inj h1
    rw [l2, l1]
    simp only [List.nil_append, List.cons_append, peak, isTreeStart, isTreeFinish, Bool.false_eq_true, if_false, List.length_nil]
    rw [peak_append]
    have := le_peak isTreeStart isTreeFinish 0 l'
    have h3 := (peak_spec isTreeStart isTreeFinish l' 0).2 l' (List.prefix_refl _)
    simp only [peak, isTreeStart, isTreeFinish, Bool.false_eq_true, if_false]
    omega

/-! ### Breadth-first search -/

theorem bfsEdges_exact : ∀ (es : List E) (q : List V) (s : σ) (log : List (Event V E)),
    ∃ s' q' l, bfsEdges G (c.fst logger) (fun _ => false) es q (s, log) = ((s', log ++ l), some q') ∧
      level isDiscover isStart q.length l = q'.length ∧ peak isDiscover isStart q.length l = q'.length
  | [], q, s, log => ⟨s, q, [], by simp [bfsEdges], rfl, rfl⟩
  | e :: es, q, s, log => by
    rw [bfsEdges]
    by_cases hd : (c.fst logger).disc (s, log) (G.tgt e) = true
    · rw [if_pos hd, on_log c (by intro v; simp)]
      obtain ⟨s', q', l, h1, h2, h3⟩ := bfsEdges_exact es q (c.on (.nonTree e) s) (log ++ [.nonTree e])
      have := le_peak isDiscover isStart q.length l
      refine ⟨s', q', .nonTree e :: l, by rw [h1]; simp, by simpa [level, isDiscover, isStart] using h2, ?_⟩
      simp only [peak, isDiscover, isStart, Bool.false_eq_true, if_false]
      omega
    · rw [if_neg hd]
      simp only [bfsDiscover, Bool.false_eq_true, if_false]
      obtain ⟨s', q', l, h1, h2, h3⟩ := bfsEdges_exact es (q ++ [G.tgt e])
        (c.on (.treeFinish e) (c.on (.discover (G.tgt e)) (c.on (.treeStart e) s)))
        (log ++ [.treeStart e] ++ [.discover (G.tgt e)] ++ [.treeFinish e])
      have := le_peak isDiscover isStart (q ++ [G.tgt e]).length l
      rw [List.length_append, List.length_singleton] at h2 h3 this
      refine ⟨s', q', .treeStart e :: .discover (G.tgt e) :: .treeFinish e :: l, Eq.trans h1 (by simp),
        by simpa [level, isDiscover, isStart] using h2, ?_⟩
      simp only [peak, isDiscover, isStart, Bool.false_eq_true, if_false, if_true]
      omega

theorem bfsLoopWidth_exact (null : V) : ∀ (fuel : Nat) (q : List V) (s : σ) (log : List (Event V E)) r n,
    bfsLoopWidth G (c.fst logger) (fun _ => false) null fuel q (s, log) = some (r, n) →
    ∃ l, r.2 = log ++ l ∧ n = peak isDiscover isStart q.length l
  | 0, _, _, _, _, _, h => by cases h
  | fuel + 1, [], s, log, r, n, h => by
    rw [bfsLoopWidth, on_log c (by intro v; simp)] at h
    simp only [Option.some.injEq, Prod.mk.injEq] at h
    obtain ⟨h1, h2⟩ := h
    exact ⟨[.searchFinish null], by rw [← h1], by rw [← h2]; simp [peak, isDiscover, isStart]⟩
  | fuel + 1, u :: q, s, log, r, n, h => by
    rw [bfsLoopWidth, on_log c (by intro v; simp)] at h
    obtain ⟨s', q', l, h1, h2, h3⟩ := bfsEdges_exact (G := G) (c := c) (G.out u) q (c.on (.start u) s) (log ++ [.start u])
    rw [h1] at h
    dsimp only at h
    rw [on_log c (by intro v; simp)] at h
    cases hr : bfsLoopWidth G (c.fst logger) (fun _ => false) null fuel q'
        (c.on (.finish u) s', log ++ [.start u] ++ l ++ [.finish u]) with
    | none => rw [hr] at h; cases h
    | some x =>
      rw [hr] at h
      simp only [Option.map_some, Option.some.injEq, Prod.mk.injEq] at h
      obtain ⟨e1, e2⟩ := h
      obtain ⟨l', l1, l2⟩ := bfsLoopWidth_exact null fuel _ _ _ x.1 x.2 hr
      refine ⟨.start u :: (l ++ .finish u :: l'), by rw [← e1, l1]; simp, ?_⟩
      have := le_peak isDiscover isStart q'.length l'
      rw [← e2, l2, peak, peak_append]
      simp only [isDiscover, isStart, Bool.false_eq_true, if_false, if_true, List.length_cons, Nat.add_sub_cancel, h2, h3, peak]
      omega

theorem bfsSources_exact : ∀ (us q : List V) (s : σ) (log : List (Event V E)),
    ∃ s' q' l, bfsSources (c.fst logger) (fun _ => false) us q (s, log) = ((s', log ++ l), some q') ∧
      level isDiscover isStart q.length l = q'.length ∧ peak isDiscover isStart q.length l = q'.length
  | [], q, s, log => ⟨s, q, [], by simp [bfsSources], rfl, rfl⟩
  | u :: us, q, s, log => by
    rw [bfsSources]
    simp only [bfsDiscover, Bool.false_eq_true, if_false]
    obtain ⟨s', q', l, h1, h2, h3⟩ := bfsSources_exact us (q ++ [u]) (c.on (.discover u) (c.on (.searchStart u) s))
      (log ++ [.searchStart u] ++ [.discover u])
    have := le_peak isDiscover isStart (q ++ [u]).length l
    rw [List.length_append, List.length_singleton] at h2 h3 this
    refine ⟨s', q', .searchStart u :: .discover u :: l, Eq.trans h1 (by simp),
      by simpa [level, isDiscover, isStart] using h2, ?_⟩
    simp only [peak, isDiscover, isStart, Bool.false_eq_true, if_false, if_true]
    omega

/-- **C113** The greatest size of the queue of a breadth-first search is the greatest number of vertices that were discovered and not yet
started, as the events tell. -/
theorem bfs_width_exact (null : V) (fuel : Nat) (us : List V) (flags : V → Bool) {flags' : V → Bool} {l : List (Event V E)} {n : Nat}
    [DecidableEq V]
    (h : bfsWidth G (discoveredFlag.fst logger) (fun _ => false) null fuel us (flags, []) = some ((flags', l), n)) :
    n = peak isDiscover isStart 0 l := by
  unfold bfsWidth at h
  have hi : initAll (discoveredFlag.fst logger : Comp _ V E) G.vertices (flags, []) =
      ((initAll (discoveredFlag.fst logger : Comp _ V E) G.vertices (flags, [])).1, []) := by
    refine Prod.ext rfl ?_
    rw [initAll_snd _ (fun _ _ => rfl)]
  rw [hi] at h
  obtain ⟨s', q', l1, h1, h2, h3⟩ := bfsSources_exact (E := E) (c := discoveredFlag) us []
    (initAll (discoveredFlag.fst logger : Comp _ V E) G.vertices (flags, [])).1 []
  rw [h1] at h
  obtain ⟨l2, e1, e2⟩ := bfsLoopWidth_exact null fuel _ _ _ _ _ h
  dsimp only at e1
  rw [e1, List.nil_append, peak_append, e2]
  rw [List.length_nil] at h2 h3
  have := le_peak isDiscover isStart q'.length l2
  rw [h2, h3]
  omega

/-- The counters of the example: two edges are started and not finished at most, and two vertices wait at most. -/
example : (visitDepth sample (discoveredFlag.fst logger) (fun _ => false) 13 3
      (initAll (discoveredFlag.fst logger) sample.vertices (fun _ => false, []))).map
        (fun r => (r.2, peak isTreeStart isTreeFinish 0 r.1.2)) = some (2, 2) ∧
    (bfsWidth sample (discoveredFlag.fst logger) (fun _ => false) 99 6 [3] (fun _ => false, [])).map
        (fun r => (r.2, peak isDiscover isStart 0 r.1.2)) = some (2, 2) := by decide +kernel

end Actl.Traversal
