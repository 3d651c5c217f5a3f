import Verif.Model.Inorder
import Verif.Spec.Inorder
import Verif.Props.Dfs

/-!
The output of the orders along the events of a search.
-/

namespace Actl.Traversal

variable {V E : Type} {G : Graph V E}

/-- What is printed for a vertex while its children are visited, `k` children being visited already. -/
def body (u : V) (k : Nat) : List (List V) → List V
  | [] => []
  | t :: ts => (if 0 < k then [u] else []) ++ t ++ body u (k + 1) ts

theorem Trees.inorder_length (F : Trees V) : F.inorder.length = F.size := by
  induction F with
  | nil => rfl
  | tree u c r _ ih => simp [Trees.inorder, Trees.size, ih]

theorem body_succ (u : V) (k : Nat) (ts : List (List V)) : body u (k + 1) ts = (ts.map (u :: ·)).flatten := by
  induction ts generalizing k with
  | nil => rfl
  | cons t ts ih => simp [body, ih]

theorem intercalate_eq (u : V) (t : List V) (ts : List (List V)) :
    [u].intercalate (t :: ts) = t ++ (ts.map (u :: ·)).flatten := by
  induction ts generalizing t with
  | nil => simp [List.intercalate]
  | cons a ts ih =>
    have := ih a
    simp only [List.intercalate] at this ⊢
    rw [List.intersperse_cons₂, List.flatten_cons, List.flatten_cons, this]
    simp

theorem body_eq (u : V) (F : Trees V) :
    body u 0 F.inorder ++ (if F.size < 2 then [u] else []) =
      if F.size < 2 then F.inorder.flatten ++ [u] else [u].intercalate F.inorder := by
  have hl := F.inorder_length
  by_cases h : F.size < 2
  · rw [if_pos h, if_pos h]
    match F.inorder, hl with
    | [], _ => rfl
    | [t], _ => simp [body]
    | _ :: _ :: _, hl => simp at hl; omega
  · rw [if_neg h, if_neg h, List.append_nil]
    match F.inorder, hl with
    | [], hl => simp at hl; omega
    | t :: ts, _ => rw [intercalate_eq, body, body_succ]; simp

variable [DecidableEq V]

/-- The effect of the events of a search on `inorder_printer`. -/
theorem Run.inorder (hG : G.WF) {D D' : Set V} {es : List E} {l : List (Event V E)} (r : Run G D es l D')
    (hes : ∀ e ∈ es, G.tgt e ∈ G.vertices) :
    ∃ F, Grows G D es F D' ∧ starts l = F.preorder ∧ finishes l = F.postorder ∧
      ∀ (s : InorderState V) (u : V) (k : Nat), (∀ e ∈ es, G.src e = u) → u ∈ D → s.state u = min 2 (k : Int) →
        (after (inorderPrinter true G) s l).output = s.output ++ body u k F.inorder ∧
        (after (inorderPrinter true G) s l).state u = min 2 ((k + F.size : Nat) : Int) ∧
        ∀ v ∈ D, v ≠ u → (after (inorderPrinter true G) s l).state v = s.state v := by
  induction r with
  | nil D =>
    exact ⟨.nil, .nil D, rfl, rfl, fun s u k _ _ hk => ⟨by simp [after_nil, Trees.inorder, body],
      by simp [after_nil, Trees.size, hk], fun _ _ _ => rfl⟩⟩
  | @skip D D' e es l h r ih =>
    obtain ⟨F, h1, h2, h3, h4⟩ := ih fun e he => hes e (List.mem_cons_of_mem _ he)
    refine ⟨F, .skip h h1, by simpa using h2, by simpa using h3, fun s u k hs hu hk => ?_⟩
    exact h4 s u k (fun e he => hs e (List.mem_cons_of_mem _ he)) hu hk
  | @tree D D1 D2 e es l1 l2 h r1 r2 ih1 ih2 =>
    have hw := hes e List.mem_cons_self
    obtain ⟨F1, a1, a2, a3, a4⟩ := ih1 fun f hf => hG.tgt _ hw f hf
    obtain ⟨F2, b1, b2, b3, b4⟩ := ih2 fun e he => hes e (List.mem_cons_of_mem _ he)
    refine ⟨.tree (G.tgt e) F1 F2, .tree h a1 b1, by simp [a2, b2, Trees.preorder], by simp [a3, b3, Trees.postorder],
      fun s u k hs hu hk => ?_⟩
    have hsrc := hs e List.mem_cons_self
    have huw : u ≠ G.tgt e := fun h' => h (h' ▸ hu)
    -- after the first events
    set w := G.tgt e with hwdef
    have e1 : ∃ s1 : InorderState V, after (inorderPrinter true G) s [.treeStart e, .discover w, .start w] = s1 ∧
        s1.output = s.output ++ (if 0 < k then [u] else []) ∧ s1.state u = min 2 ((k + 1 : Nat) : Int) ∧ s1.state w = 0 ∧
        ∀ v ∈ D, v ≠ u → s1.state v = s.state v := by
      refine ⟨_, rfl, ?_, ?_, ?_, ?_⟩
      · simp only [after, List.foldl, inorderPrinter, hsrc, hk]
        by_cases hk0 : 0 < k
        · rw [if_pos (by omega), if_pos hk0]
        · rw [if_neg (by omega), if_neg hk0, List.append_nil]
      · simp only [after, List.foldl, inorderPrinter, hsrc, hk]
        rw [put, if_neg huw]
        by_cases hk2 : k < 2
        · rw [if_pos (by omega), put, if_pos rfl]
          have : k = 0 ∨ k = 1 := by omega
          rcases this with rfl | rfl <;> decide
        · rw [if_neg (by omega), hk]; omega
      · simp only [after, List.foldl, inorderPrinter, put, if_true]
      · intro v hv hvu
        have : v ≠ w := fun h' => h (h' ▸ hv)
        simp only [after, List.foldl, inorderPrinter, hsrc]
        rw [put, if_neg this]
        by_cases hc : s.state u < 2
        · rw [if_pos hc, put, if_neg hvu]
        · rw [if_neg hc]
    obtain ⟨s1, q0, q1, q2, q3, q4⟩ := e1
    obtain ⟨c1, c2, c3⟩ := a4 s1 w 0 (fun f hf => hG.src _ hw f hf) (Set.mem_insert _ _) (by rw [q3]; rfl)
    generalize hs2 : after (inorderPrinter true G) s1 l1 = s2 at c1 c2 c3
    have e2 : ∃ s3 : InorderState V, after (inorderPrinter true G) s2 [.finish w, .treeFinish e] = s3 ∧
        s3.output = s2.output ++ (if F1.size < 2 then [w] else []) ∧ s3.state = s2.state := by
      refine ⟨_, rfl, ?_, rfl⟩
      simp only [after, List.foldl, inorderPrinter, c2]
      by_cases hF : F1.size < 2
      · rw [if_pos (by omega), if_pos hF]
      · rw [if_neg (by omega), if_neg hF, List.append_nil]
    obtain ⟨s3, p0, p1, p2⟩ := e2
    have hu3 : s3.state u = min 2 ((k + 1 : Nat) : Int) := by
      rw [p2, c3 u (Set.mem_insert_of_mem _ hu) huw, q2]
    obtain ⟨d1, d2, d3⟩ := b4 s3 u (k + 1) (fun e he => hs e (List.mem_cons_of_mem _ he))
      (r1.subset (Set.mem_insert_of_mem _ hu)) hu3
    have hall : after (inorderPrinter true G) s
        ([.treeStart e, .discover w, .start w] ++ l1 ++ [.finish w, .treeFinish e] ++ l2) =
          after (inorderPrinter true G) s3 l2 := by
      rw [after_append, after_append, after_append, q0, hs2, p0]
    rw [hall]
    refine ⟨?_, ?_, ?_⟩
    · rw [d1, p1, c1, q1, Trees.inorder, body, ← body_eq]
      simp
    · rw [d2, Trees.size]
      congr 2
      omega
    · intro v hv hvu
      have hvw : v ≠ w := fun h' => h (h' ▸ hv)
      rw [d3 v (r1.subset (Set.mem_insert_of_mem _ hv)) hvu, p2, c3 v (Set.mem_insert_of_mem _ hv) hvw, q4 v hv hvu]

/-- `inorder_printer` knows the discovered vertices. -/
theorem inorder_tracks : Tracks G (inorderPrinter true G)
    (fun s D => (∀ v ∈ G.vertices, s.state v ≠ -1 ↔ v ∈ D) ∧ ∀ v ∈ D, 0 ≤ s.state v ∧ s.state v ≤ 2) where
  disc := by
    intro s D v h hv
    simp [inorderPrinter, ← h.1 v hv]
  nonTree := fun s D e h _ _ => h
  treeFinish := fun s D e h _ _ => h
  finish := fun s D u h _ => h
  searchFinish := fun s D u h _ => h
  enterTree := by
    intro s D e h hs ht htv
    have hst : ∀ v, ((inorderPrinter true G).on (.start (G.tgt e)) ((inorderPrinter true G).on (.discover (G.tgt e))
        ((inorderPrinter true G).on (.treeStart e) s))).state v =
        if v = G.tgt e then 0 else if v = G.src e ∧ s.state (G.src e) < 2 then s.state (G.src e) + 1 else s.state v := by
      intro v
      simp only [inorderPrinter, put]
      by_cases hv : v = G.tgt e
      · rw [if_pos hv, if_pos hv]
      · rw [if_neg hv, if_neg hv]
        have hb := h.2 _ hs
        by_cases hc : s.state (G.src e) < 2
        · rw [if_pos hc, put]
          by_cases hvs : v = G.src e
          · rw [if_pos hvs, if_pos ⟨hvs, hc⟩]
            have : s.state (G.src e) = 0 ∨ s.state (G.src e) = 1 := by omega
            rcases this with h' | h' <;> rw [h'] <;> decide
          · rw [if_neg hvs, if_neg (fun h' => hvs h'.1)]
        · rw [if_neg hc, if_neg (fun h' => hc h'.2)]
    refine ⟨fun v hv => ?_, fun v hv => ?_⟩
    · rw [hst]
      by_cases h1 : v = G.tgt e
      · simp [h1]
      · rw [if_neg h1]
        have : v ∈ insert (G.tgt e) D ↔ v ∈ D := by simp [h1]
        rw [this]
        by_cases h2 : v = G.src e ∧ s.state (G.src e) < 2
        · rw [if_pos h2]
          have := h.2 _ hs
          refine ⟨fun _ => by rw [h2.1]; exact hs, fun _ => by omega⟩
        · rw [if_neg h2]; exact h.1 v hv
    · rw [hst]
      by_cases h1 : v = G.tgt e
      · simp [h1]
      · rw [if_neg h1]
        have hvD : v ∈ D := by simpa [h1] using hv
        by_cases h2 : v = G.src e ∧ s.state (G.src e) < 2
        · rw [if_pos h2]
          have := h.2 _ hs
          omega
        · rw [if_neg h2]; exact h.2 v hvD
  enterRoot := by
    intro s D u h hu huv
    refine ⟨fun v hv => ?_, fun v hv => ?_⟩
    · simp only [inorderPrinter, put]
      by_cases h1 : v = u
      · simp [h1]
      · rw [if_neg h1, h.1 v hv]; simp [h1]
    · simp only [inorderPrinter, put]
      by_cases h1 : v = u
      · simp [h1]
      · rw [if_neg h1]; exact h.2 v (by simpa [h1] using hv)

theorem inorder_initAll (signed : Bool) (vs : List V) (s : InorderState V) :
    (initAll (inorderPrinter signed G) vs s).output = s.output ∧
      ∀ v, (initAll (inorderPrinter signed G) vs s).state v = if v ∈ vs then toChar signed (-1) else s.state v := by
  induction vs generalizing s with
  | nil => exact ⟨rfl, by simp [initAll]⟩
  | cons a vs ih =>
    obtain ⟨h1, h2⟩ := ih ((inorderPrinter signed G).on (.init a) s)
    refine ⟨h1, fun v => ?_⟩
    rw [initAll, h2 v]
    by_cases hv : v ∈ vs
    · simp [hv]
    · by_cases ha : v = a
      · simp [ha, inorderPrinter, put]
      · simp [hv, ha, inorderPrinter, put]

end Actl.Traversal
