import Verif.Lemmas.Inorder

/-!
**C110** Preorder, inorder and postorder are the orders of the depth-first tree.
-/

namespace Actl.Traversal

variable {V E : Type} {G : Graph V E}

/-- The depth-first tree is unique. -/
theorem Grows.det {D D1 D2 : Set V} {es : List E} {F1 F2 : Trees V} (h1 : Grows G D es F1 D1) (h2 : Grows G D es F2 D2) :
    F1 = F2 ∧ D1 = D2 := by
  induction h1 generalizing F2 D2 with
  | nil D => cases h2; exact ⟨rfl, rfl⟩
  | skip h r ih =>
    cases h2 with
    | skip h' r' => exact ih r'
    | tree h' r1 r2 => exact absurd h h'
  | tree h r1 r2 ih1 ih2 =>
    cases h2 with
    | skip h' r' => exact absurd h' h
    | tree h' r1' r2' =>
      obtain ⟨rfl, rfl⟩ := ih1 r1'
      obtain ⟨rfl, rfl⟩ := ih2 r2'
      exact ⟨rfl, rfl⟩

theorem DfsTree.unique {s : V} {F1 F2 : Trees V} (h1 : DfsTree G s F1) (h2 : DfsTree G s F2) : F1 = F2 := by
  obtain ⟨D1, h1⟩ := h1
  obtain ⟨D2, h2⟩ := h2
  exact (h1.det h2).1

variable [DecidableEq V]

theorem inorder_init (state : V → Int) :
    (fun (s : InorderState V) (D : Set V) => (∀ v ∈ G.vertices, s.state v ≠ -1 ↔ v ∈ D) ∧
      ∀ v ∈ D, 0 ≤ s.state v ∧ s.state v ≤ 2) (initAll (inorderPrinter true G) G.vertices ⟨state, []⟩) ∅ := by
  refine ⟨fun v hv => ?_, fun v hv => absurd hv (Set.notMem_empty v)⟩
  rw [(inorder_initAll true G.vertices _).2 v, if_pos hv]
  simp [toChar]

/-- **C110** From every source of every graph there is one depth-first tree; it has the vertices reachable from the source, each
once.  `preorder`, `postorder` and `inorder` end and put out exactly the orders of this tree (on platforms where `char` is signed,
for `inorder`). -/
theorem orders_of_tree (hG : G.WF) {s : V} (hs : s ∈ G.vertices) (flags : V → Bool) (state : V → Int) :
    ∃ F, DfsTree G s F ∧ (∀ v, v ∈ (Trees.tree s F .nil).preorder ↔ G.Reach s v) ∧ (Trees.tree s F .nil).preorder.Nodup ∧
      (∃ fuel, preorder G fuel s flags = some (Trees.tree s F .nil).preorder) ∧
      (∃ fuel, postorder G fuel s flags = some (Trees.tree s F .nil).postorder) ∧
      (∃ fuel, inorder true G fuel s state = some (Trees.tree s F .nil).inorder.flatten) := by
  obtain ⟨l, hex, ⟨fl, hl⟩, h1, h2⟩ := postorder_spec hG s hs flags
  obtain ⟨l', D', ⟨l1, hr, hv⟩, -, fuel, hf⟩ := dfsFrom_ref inorder_tracks hG s hs ⟨state, []⟩ (inorder_init state)
  obtain ⟨l2, D2, hv2, -, f2, hf2⟩ := dfsFrom_ref (flag_tracks.fst logger) hG s hs (flags, [])
    (by rw [initAll_fst]; exact flag_init flags)
  have hll : l = l' := by
    obtain ⟨m2, r2, rfl⟩ := hv2
    have := dfsFrom_det _ _ _ _ _ _ _ hf2 hl
    rw [after_fst, initAll_snd _ (fun _ _ => rfl), fold_logger _ _ (by
      intro v; exact Visit.no_init ⟨m2, r2, rfl⟩ v), List.nil_append] at this
    simp only [Prod.mk.injEq] at this
    rw [← this.2, hv, (hr.det r2).1]
  subst hll
  obtain ⟨F, a1, a2, a3, a4⟩ := hr.inorder hG fun e he => hG.tgt s hs e he
  have hst : starts l = (Trees.tree s F .nil).preorder := by
    rw [hv]; simp [a2, Trees.preorder]
  have hfi : finishes l = (Trees.tree s F .nil).postorder := by
    rw [hv]; simp [a3, Trees.postorder]
  refine ⟨F, ⟨D', by simpa using a1⟩, ?_, ?_, ?_, ?_, fuel, ?_⟩
  · intro v; rw [← hst, hex.starts_eq]; exact hex.exactly v
  · rw [← hst, hex.starts_eq]; exact hex.once
  · rw [← hst]; exact h2
  · rw [← hfi]; exact h1
  · rw [inorder, hf, hv]
    simp only [Option.map_some, Option.some.injEq]
    rw [after_append, after_append]
    obtain ⟨i1, i2⟩ := inorder_initAll (G := G) true G.vertices ⟨state, []⟩
    generalize initAll (inorderPrinter true G) G.vertices ⟨state, []⟩ = s0 at i1 i2
    obtain ⟨b1, b2, -⟩ := a4 (after (inorderPrinter true G) s0 [.searchStart s, .discover s, .start s]) s 0
      (fun e he => hG.src s hs e he) (Set.mem_insert _ _) (by simp [after, inorderPrinter, put])
    generalize after (inorderPrinter true G) (after (inorderPrinter true G) s0 [.searchStart s, .discover s, .start s]) l1 = s2
      at b1 b2
    have hout : (after (inorderPrinter true G) s0 [.searchStart s, .discover s, .start s]).output = [] := i1
    rw [hout, List.nil_append] at b1
    simp only [after, List.foldl, inorderPrinter, Trees.inorder, List.flatten_cons, List.flatten_nil, List.append_nil, b2]
    rw [← body_eq, ← b1]
    by_cases hF : F.size < 2
    · rw [if_pos (by omega), if_pos hF]
    · rw [if_neg (by omega), if_neg hF, List.append_nil]

/-- Whatever the bound on the number of steps, only this is put out. -/
theorem inorder_only (hG : G.WF) {s : V} (hs : s ∈ G.vertices) {F : Trees V} (hF : DfsTree G s F) {state : V → Int} {fuel : Nat}
    {output : List V} (h : inorder true G fuel s state = some output) : output = (Trees.tree s F .nil).inorder.flatten := by
  obtain ⟨F', h1, -, -, -, -, f, h2⟩ := orders_of_tree hG hs (fun _ => false) state
  rw [hF.unique h1]
  rw [inorder, Option.map_eq_some_iff] at h h2
  obtain ⟨a, ha, rfl⟩ := h
  obtain ⟨b, hb, hb'⟩ := h2
  rw [← hb', dfsFrom_det _ _ _ _ _ _ _ ha hb]

/-! ### How often vertices are put out -/

omit [DecidableEq V] in
theorem Trees.degrees_length (F : Trees V) : F.degrees.length = F.preorder.length := by
  induction F with
  | nil => rfl
  | tree u c r ih1 ih2 => simp [Trees.degrees, Trees.preorder, ih1, ih2]

omit [DecidableEq V] in
theorem Trees.degrees_sum (F : Trees V) : F.degrees.sum + F.size = F.preorder.length := by
  induction F with
  | nil => rfl
  | tree u c r ih1 ih2 =>
    simp only [Trees.degrees, Trees.preorder, Trees.size, List.cons_append, List.sum_cons, List.sum_append, List.length_cons,
      List.length_append]
    omega

theorem count_intercalate (u v : V) (ts : List (List V)) (h : ts ≠ []) :
    List.count v ([u].intercalate ts) = List.count v ts.flatten + if u = v then ts.length - 1 else 0 := by
  obtain ⟨t, ts, rfl⟩ := List.exists_cons_of_ne_nil h
  rw [intercalate_eq]
  clear h
  have key : List.count v (ts.map (u :: ·)).flatten = List.count v ts.flatten + if u = v then ts.length else 0 := by
    induction ts with
    | nil => simp
    | cons a ts ih =>
      simp only [List.map_cons, List.flatten_cons, List.count_append, ih, List.length_cons, List.count_cons]
      by_cases hv : u = v
      · simp [hv]; omega
      · simp [hv]
  simp only [List.count_append, key, List.flatten_cons, List.length_cons, Nat.add_sub_cancel]
  omega

theorem Trees.inorder_count_sum (F : Trees V) (v : V) :
    List.count v F.inorder.flatten =
      ((F.preorder.zip F.degrees).map fun p => if p.1 = v then max 1 (p.2 - 1) else 0).sum := by
  induction F with
  | nil => rfl
  | tree u c r ih1 ih2 =>
    have hl := c.degrees_length
    have hs := c.inorder_length
    simp only [Trees.inorder, Trees.preorder, Trees.degrees, List.flatten_cons, List.count_append, List.cons_append,
      List.zip_cons_cons, List.map_cons, List.sum_cons]
    rw [List.zip_append hl.symm, List.map_append, List.sum_append, ← ih1, ← ih2, ← Nat.add_assoc]
    congr 1
    by_cases h : c.size < 2
    · rw [if_pos h, List.count_append, List.count_singleton]
      by_cases hv : u = v
      · simp [hv]; omega
      · simp [hv]
    · rw [if_neg h, count_intercalate u v _ (by rintro h0; rw [h0] at hs; simp at hs; omega), hs]
      by_cases hv : u = v
      · simp [hv]; omega
      · simp [hv]

/-- **C110** Every vertex reachable from the source is put out once for each two adjacent children in the depth-first tree, but
at least once; no other vertex is put out. -/
theorem inorder_count (hG : G.WF) {s : V} (hs : s ∈ G.vertices) (state : V → Int) :
    ∃ F output, DfsTree G s F ∧ (∃ fuel, inorder true G fuel s state = some output) ∧
      (∀ v d, (v, d) ∈ (Trees.tree s F .nil).preorder.zip (Trees.tree s F .nil).degrees →
        List.count v output = max 1 (d - 1)) ∧
      (Trees.tree s F .nil).degrees.length = (Trees.tree s F .nil).preorder.length ∧
      ∀ v, v ∈ output ↔ G.Reach s v := by
  obtain ⟨F, h1, h2, h3, -, -, h4⟩ := orders_of_tree hG hs (fun _ => false) state
  refine ⟨F, _, h1, h4, ?_, Trees.degrees_length _, ?_⟩
  all_goals
    generalize Trees.tree s F .nil = T at h2 h3 h4
    have hl := T.degrees_length
    have hc := T.inorder_count_sum
    generalize T.inorder.flatten = out at h4 hc
    generalize T.preorder = vs at *
    generalize T.degrees = ds at *
  · intro v d hvd
    rw [hc]
    clear hc h2
    induction vs generalizing ds with
    | nil => simp at hvd
    | cons a vs ih =>
      match ds, hl with
      | b :: ds, hl =>
        simp only [List.zip_cons_cons, List.mem_cons, Prod.mk.injEq] at hvd
        simp only [List.zip_cons_cons, List.map_cons, List.sum_cons]
        rw [List.nodup_cons] at h3
        rcases hvd with ⟨rfl, rfl⟩ | hvd
        · rw [if_pos rfl, Nat.add_eq_left, List.sum_eq_zero_iff_forall_eq_nat]
          intro x hx
          obtain ⟨⟨y, e⟩, hy, rfl⟩ := List.mem_map.mp hx
          rw [if_neg]
          rintro rfl
          exact h3.1 (List.of_mem_zip hy).1
        · have : a ≠ v := by rintro rfl; exact h3.1 (List.of_mem_zip hvd).1
          rw [if_neg this, Nat.zero_add]
          exact ih h3.2 ds (by simpa using hl) hvd
  · intro v
    rw [← h2, ← List.count_pos_iff, hc]
    clear hc h2 h3
    induction vs generalizing ds with
    | nil => simp
    | cons a vs ih =>
      match ds, hl with
      | b :: ds, hl =>
        have := ih ds (by simpa using hl)
        simp only [List.zip_cons_cons, List.map_cons, List.sum_cons, List.mem_cons]
        by_cases hav : a = v
        · simp [hav]
        · have h' : ¬v = a := fun h => hav h.symm
          rw [if_neg hav, Nat.zero_add, this]
          simp [h']

/-! ### The length of the output -/

omit [DecidableEq V] in
theorem length_intercalate (u : V) (ts : List (List V)) (h : ts ≠ []) :
    ([u].intercalate ts).length = ts.flatten.length + (ts.length - 1) := by
  obtain ⟨t, ts, rfl⟩ := List.exists_cons_of_ne_nil h
  rw [intercalate_eq]
  clear h
  have key : (ts.map (u :: ·)).flatten.length = ts.flatten.length + ts.length := by
    induction ts with
    | nil => rfl
    | cons a ts ih => simp only [List.map_cons, List.flatten_cons, List.length_append, ih, List.length_cons]; omega
  simp only [List.length_append, key, List.flatten_cons, List.length_cons]
  omega

omit [DecidableEq V] in
theorem Trees.inorder_flatten_length (F : Trees V) :
    F.inorder.flatten.length = F.preorder.length + (F.degrees.map (· - 2)).sum := by
  induction F with
  | nil => rfl
  | tree u c r ih1 ih2 =>
    have hs := c.inorder_length
    simp only [Trees.inorder, Trees.preorder, Trees.degrees, List.flatten_cons, List.length_append, List.cons_append,
      List.map_cons, List.map_append, List.sum_cons, List.sum_append, List.length_cons, ih2]
    by_cases h : c.size < 2
    · rw [if_pos h, List.length_append, ih1, List.length_singleton]; omega
    · rw [if_neg h, length_intercalate u _ (by rintro h0; rw [h0] at hs; simp at hs; omega), ih1, hs]; omega

theorem sub_two_sum (ds : List Nat) : (ds.map (· - 2)).sum ≤ ds.sum ∧ ((∃ d ∈ ds, 2 ≤ d) → (ds.map (· - 2)).sum + 2 ≤ ds.sum) ∧
    ((ds.map (· - 2)).sum = 0 ↔ ∀ d ∈ ds, d ≤ 2) := by
  induction ds with
  | nil => simp
  | cons a ds ih =>
    obtain ⟨h1, h2, h3⟩ := ih
    simp only [List.map_cons, List.sum_cons]
    refine ⟨by omega, ?_, ?_⟩
    · rintro ⟨d, hd, hd2⟩
      rcases List.mem_cons.mp hd with rfl | hd
      · omega
      · have := h2 ⟨d, hd, hd2⟩; omega
    · rw [Nat.add_eq_zero_iff, h3]
      simp only [List.mem_cons, forall_eq_or_imp]
      exact and_congr_left fun _ => by omega

/-- **C110** The documented numbers of vertices put out: at least the number `n` of vertices reachable from the source, exactly
`n` if and only if no vertex has more than two children in the depth-first tree, and at most `2 n - 3` if `n` is
at least three. -/
theorem inorder_length (hG : G.WF) {s : V} (hs : s ∈ G.vertices) (state : V → Int) :
    ∃ F output n, DfsTree G s F ∧ (∃ fuel, inorder true G fuel s state = some output) ∧
      (∃ vs : List V, vs.Nodup ∧ (∀ v, v ∈ vs ↔ G.Reach s v) ∧ vs.length = n) ∧
      n ≤ output.length ∧ (output.length = n ↔ ∀ d ∈ (Trees.tree s F .nil).degrees, d ≤ 2) ∧
      (3 ≤ n → output.length ≤ 2 * n - 3) := by
  obtain ⟨F, h1, h2, h3, -, -, h4⟩ := orders_of_tree hG hs (fun _ => false) state
  refine ⟨F, _, _, h1, h4, ⟨_, h3, h2, rfl⟩, ?_⟩
  have hl := (Trees.tree s F .nil).inorder_flatten_length
  have hd := (Trees.tree s F .nil).degrees_sum
  have hz : (Trees.tree s F .nil).size = 1 := rfl
  obtain ⟨g1, g2, g3⟩ := sub_two_sum (Trees.tree s F .nil).degrees
  refine ⟨by omega, ?_, fun hn => ?_⟩
  · rw [hl, ← g3]; omega
  · by_cases hex : ∃ d ∈ (Trees.tree s F .nil).degrees, 2 ≤ d
    · have := g2 hex; omega
    · have : ((Trees.tree s F .nil).degrees.map (· - 2)).sum = 0 := by
        rw [g3]
        intro d hd'
        by_contra hc
        exact hex ⟨d, hd', by omega⟩
      omega

/-! ### Binary trees -/

/-- The trees of a graph. -/
def BTree.forest : BTree V → Trees V → Trees V
  | .empty, rest => rest
  | .node l x r, rest => .tree x (l.forest (r.forest .nil)) rest

/-- What is put out for a binary tree. -/
def BTree.printed : BTree V → List V
  | .empty => []
  | .node l x r => if l.root = [] ∧ r.root ≠ [] then r.printed ++ [x] else l.printed ++ [x] ++ r.printed

theorem BTree.root_nil {t : BTree V} : t.root = [] ↔ t = .empty := by cases t <;> simp [BTree.root]

theorem BTree.forest_size (t : BTree V) (rest : Trees V) : (t.forest rest).size = rest.size + t.root.length := by
  cases t <;> simp [BTree.forest, BTree.root, Trees.size]

theorem BTree.forest_inorder (t : BTree V) (rest : Trees V) :
    (t.forest rest).inorder = t.root.map (fun _ => t.printed) ++ rest.inorder := by
  induction t generalizing rest with
  | empty => rfl
  | node l x r ihl ihr =>
    rw [BTree.forest, Trees.inorder, ihl, ihr]
    simp only [BTree.root, List.map_cons, List.map_nil, List.singleton_append, List.cons.injEq, and_true, BTree.forest_size,
      Trees.size, Trees.inorder, List.append_nil, BTree.printed]
    cases l <;> cases r <;> simp [BTree.root, BTree.printed, List.intercalate]

theorem BTree.printed_perm (t : BTree V) : t.printed.Perm t.inorder := by
  induction t with
  | empty => exact .nil
  | node l x r ihl ihr =>
    rw [BTree.printed, BTree.inorder]
    by_cases h : l.root = [] ∧ r.root ≠ []
    · rw [if_pos h, BTree.root_nil.mp h.1]
      simp only [BTree.inorder, List.nil_append]
      exact List.perm_append_comm.trans (ihr.append_left _)
    · rw [if_neg h]
      exact (ihl.append_right _).append ihr

theorem BTree.printed_eq_iff (t : BTree V) (hn : t.inorder.Nodup) : t.printed = t.inorder ↔ t.LeftFirst := by
  induction t with
  | empty => simp [BTree.printed, BTree.inorder, BTree.LeftFirst]
  | node l x r ihl ihr =>
    rw [BTree.inorder] at hn
    have hnl : l.inorder.Nodup := hn.of_append_left.of_append_left
    have hnr : r.inorder.Nodup := hn.of_append_right
    rw [BTree.printed, BTree.inorder, BTree.LeftFirst]
    by_cases h : l.root = [] ∧ r.root ≠ []
    · rw [if_pos h]
      refine ⟨fun he => ?_, fun he => absurd (he.1 h.1) h.2⟩
      exfalso
      rw [BTree.root_nil.mp h.1] at he hn
      simp only [BTree.inorder, List.nil_append, List.singleton_append] at he hn
      have hp := r.printed_perm
      match hpr : r.printed with
      | [] =>
        rw [hpr] at hp
        have := hp.symm.eq_nil
        cases r with
        | empty => exact h.2 rfl
        | node a b c => simp [BTree.inorder] at this
      | y :: ys =>
        rw [hpr, List.cons_append, List.cons.injEq] at he
        rw [hpr] at hp
        rw [List.nodup_cons] at hn
        exact hn.1 (hp.subset (by rw [he.1]; exact List.mem_cons_self))
    · rw [if_neg h, ← ihl hnl, ← ihr hnr]
      have hc : l.root = [] → r.root = [] := fun h1 => by
        by_contra h2
        exact h ⟨h1, h2⟩
      constructor
      · intro he
        have hlen : l.printed.length = l.inorder.length := l.printed_perm.length_eq
        obtain ⟨h1, h2⟩ := List.append_inj he (by simp [hlen])
        exact ⟨hc, (List.append_inj h1 hlen).1, h2⟩
      · rintro ⟨-, h1, h2⟩
        rw [h1, h2]

/-- What growing means for one subtree. -/
def BTree.GrowsBelow (G : Graph V E) (u : V) : BTree V → Prop
  | .empty => True
  | .node l x r => ∀ D : Set V, u ∈ D → (∀ v ∈ (BTree.node l x r).inorder, v ∉ D) →
      Grows G (insert x D) (G.out x) (l.forest (r.forest .nil)) (D ∪ {v | v ∈ (BTree.node l x r).inorder})

theorem grows_edges {above : List V} {u : V} (es : List E) (ts : List (BTree V)) (hP : ∀ t ∈ ts, t.GrowsBelow G u)
    (hf : (es.map G.tgt).filter (· ∉ above) = ts.flatMap BTree.root) (D : Set V) (hu : u ∈ D) (ha : ∀ a ∈ above, a ∈ D)
    (hn : (ts.flatMap BTree.inorder).Nodup) (hD : ∀ v ∈ ts.flatMap BTree.inorder, v ∉ D) :
    Grows G D es (ts.foldr BTree.forest .nil) (D ∪ {v | v ∈ ts.flatMap BTree.inorder}) := by
  induction es generalizing ts D with
  | nil =>
    have he : ∀ t ∈ ts, t = .empty := by
      intro t ht
      rw [← BTree.root_nil]
      exact List.flatMap_eq_nil_iff.mp hf.symm t ht
    have h1 : ts.foldr BTree.forest .nil = .nil := by
      clear hf hP hn hD
      induction ts with
      | nil => rfl
      | cons t ts ih => rw [List.foldr_cons, he t List.mem_cons_self, BTree.forest, ih fun t ht => he t (List.mem_cons_of_mem _ ht)]
    have h2 : ts.flatMap BTree.inorder = [] := List.flatMap_eq_nil_iff.mpr fun t ht => by rw [he t ht]; rfl
    rw [h1, h2]
    simpa using Grows.nil D
  | cons e es ih =>
    by_cases h : G.tgt e ∈ above
    · refine .skip (ha _ h) (ih ts hP ?_ D hu ha hn hD)
      rw [← hf]; simp [h]
    · -- the first tree that is not empty
      have hf' : G.tgt e :: (es.map G.tgt).filter (· ∉ above) = ts.flatMap BTree.root := by rw [← hf]; simp [h]
      clear hf
      induction ts with
      | nil => simp at hf'
      | cons t ts iht =>
        cases t with
        | empty =>
          have := iht (fun t ht => hP t (List.mem_cons_of_mem _ ht)) (by simpa [BTree.inorder] using hn)
            (by simpa [BTree.inorder] using hD) (by simpa [BTree.root] using hf')
          simpa [BTree.forest, BTree.inorder] using this
        | node l x r =>
          simp only [List.flatMap_cons, BTree.root, List.cons_append, List.nil_append, List.cons.injEq] at hf'
          obtain ⟨rfl, hf'⟩ := hf'
          rw [List.flatMap_cons] at hn hD
          have hx : G.tgt e ∉ D := hD _ (by simp [BTree.inorder])
          have hg := hP _ List.mem_cons_self D hu (fun v hv => hD v (List.mem_append_left _ hv))
          rw [List.foldr_cons, BTree.forest]
          refine .tree hx hg ?_
          have := ih ts (fun t ht => hP t (List.mem_cons_of_mem _ ht)) hf' (D ∪ {v | v ∈ (BTree.node l (G.tgt e) r).inorder})
            (.inl hu) (fun a haa => .inl (ha a haa)) hn.of_append_right (by
              rintro v hv (hvD | hvt)
              · exact hD v (List.mem_append_right _ hv) hvD
              · exact (List.disjoint_of_nodup_append hn) hvt hv)
          rw [List.flatMap_cons]
          convert this using 1
          ext v
          simp only [Set.mem_union, Set.mem_setOf_eq, List.mem_append]
          tauto

theorem growsBelow (t : BTree V) (above : List V) (u : V) (hu : ∀ a ∈ above, a = u) (ht : t.InGraph G above)
    (hn : t.inorder.Nodup) : t.GrowsBelow G u := by
  induction t generalizing above u with
  | empty => trivial
  | node l x r ihl ihr =>
    intro D huD hD
    obtain ⟨h1, h2, h3⟩ := ht
    rw [BTree.inorder] at hn hD
    have hnl := hn.of_append_left.of_append_left
    have hnr := hn.of_append_right
    have := grows_edges (above := above) (u := x) (G.out x) [l, r] (by
        intro t ht
        rcases List.mem_cons.mp ht with rfl | ht
        · exact ihl [x] x (by simp) h2 hnl
        · rw [List.mem_singleton.mp ht]; exact ihr [x] x (by simp) h3 hnr)
      (by simpa using h1) (insert x D) (Set.mem_insert _ _) (fun a ha => .inr (by rw [hu a ha]; exact huD))
      (by
        simp only [List.flatMap_cons, List.flatMap_nil, List.append_nil]
        rw [List.append_assoc] at hn
        exact (hn.sublist (List.Sublist.append_left (List.sublist_append_right _ _) _)))
      (by
        intro v hv
        simp only [List.flatMap_cons, List.flatMap_nil, List.append_nil, List.mem_append] at hv
        rintro (rfl | hvD)
        · rw [List.append_assoc, List.nodup_append] at hn
          rcases hv with hv | hv
          · exact hn.2.2 v hv v (by simp) rfl
          · have := hn.2.1
            simp only [List.singleton_append, List.nodup_cons] at this
            exact this.1 hv
        · exact hD v (by simp; tauto) hvD)
    have hset : D ∪ {v | v ∈ (BTree.node l x r).inorder} = insert x D ∪ {v | v ∈ [l, r].flatMap BTree.inorder} := ?_
    · rw [hset]; exact this
    ext v
    simp only [BTree.inorder, Set.mem_union, Set.mem_insert_iff, Set.mem_setOf_eq, List.mem_append, List.mem_singleton,
      List.flatMap_cons, List.flatMap_nil, List.append_nil]
    tauto

theorem binary_dfsTree {l r : BTree V} {x : V} (ht : (BTree.node l x r).InGraph G [])
    (hn : (BTree.node l x r).inorder.Nodup) : DfsTree G x (l.forest (r.forest .nil)) := by
  obtain ⟨h1, h2, h3⟩ := ht
  rw [BTree.inorder] at hn
  have hnl := hn.of_append_left.of_append_left
  have hnr := hn.of_append_right
  refine ⟨_, grows_edges (above := []) (u := x) (G.out x) [l, r] ?_ (by simpa using h1) {x} rfl (by simp) ?_ ?_⟩
  · intro t ht
    rcases List.mem_cons.mp ht with rfl | ht
    · exact growsBelow _ [x] x (by simp) h2 hnl
    · rw [List.mem_singleton.mp ht]; exact growsBelow _ [x] x (by simp) h3 hnr
  · simp only [List.flatMap_cons, List.flatMap_nil, List.append_nil]
    rw [List.append_assoc] at hn
    exact hn.sublist (List.Sublist.append_left (List.sublist_append_right _ _) _)
  · intro v hv
    simp only [List.flatMap_cons, List.flatMap_nil, List.append_nil, List.mem_append] at hv
    rintro rfl
    rw [List.append_assoc, List.nodup_append] at hn
    rcases hv with hv | hv
    · exact hn.2.2 v hv v (by simp) rfl
    · have := hn.2.1
      simp only [List.singleton_append, List.nodup_cons] at this
      exact this.1 hv

/-- **C110** The documented claim on binary trees: from the root of a binary tree in a graph, directed or undirected, the standard
inorder is put out **if and only if** no vertex has a right child but no left child. -/
theorem inorder_binary (hG : G.WF) {l r : BTree V} {x : V} (hx : x ∈ G.vertices) (ht : (BTree.node l x r).InGraph G [])
    (hn : (BTree.node l x r).inorder.Nodup) (state : V → Int) :
    ∃ output, (∃ fuel, inorder true G fuel x state = some output) ∧
      (output = (BTree.node l x r).inorder ↔ (BTree.node l x r).LeftFirst) := by
  obtain ⟨F, -, -, -, -, -, h4⟩ := orders_of_tree hG hx (fun _ => false) state
  have hb := binary_dfsTree ht hn
  obtain ⟨fuel, h4⟩ := h4
  have he := inorder_only hG hx hb h4
  rw [he] at h4
  refine ⟨_, ⟨fuel, h4⟩, ?_⟩
  rw [← BTree.printed_eq_iff _ hn]
  have := (BTree.node l x r).forest_inorder .nil
  rw [BTree.forest] at this
  rw [this]
  simp [BTree.root, Trees.inorder]

/-! ### Stars -/

theorem star_grows (s : V) (es : List E) (D : Set V) (hs : s ∈ D) (hn : (es.map G.tgt).Nodup) (hD : ∀ e ∈ es, G.tgt e ∉ D)
    (hl : ∀ e ∈ es, ∀ e' ∈ G.out (G.tgt e), G.tgt e' = s) :
    ∃ D', Grows G D es (es.foldr (fun e F => .tree (G.tgt e) .nil F) .nil) D' := by
  induction es generalizing D with
  | nil => exact ⟨D, .nil D⟩
  | cons e es ih =>
    rw [List.map_cons, List.nodup_cons] at hn
    have hleaf : ∀ (l : List E) (D : Set V), s ∈ D → (∀ e' ∈ l, G.tgt e' = s) → Grows G D l .nil D := by
      intro l
      induction l with
      | nil => exact fun D _ _ => .nil D
      | cons a l ih =>
        intro D hD h
        exact .skip (by rw [h a List.mem_cons_self]; exact hD) (ih D hD fun e' he' => h e' (List.mem_cons_of_mem _ he'))
    obtain ⟨D', h⟩ := ih (insert (G.tgt e) D) (.inr hs) hn.2 (by
        rintro e' he' (h | h)
        · exact hn.1 (h ▸ List.mem_map_of_mem he')
        · exact hD e' (List.mem_cons_of_mem _ he') h)
      (fun e' he' => hl e' (List.mem_cons_of_mem _ he'))
    exact ⟨D', .tree (hD e List.mem_cons_self) (hleaf _ _ (.inr hs) (hl e List.mem_cons_self)) h⟩

/-- **C110** From the centre of a star the centre is put out between each pair of leaves: with `n ≥ 3` vertices the output has
`2 n - 3` of them, so the bound of `inorder_length` is reached for every `n`. -/
theorem inorder_star (hG : G.WF) {s : V} (hs : s ∈ G.vertices) (hn : ((G.out s).map G.tgt).Nodup)
    (hself : s ∉ (G.out s).map G.tgt) (hl : ∀ v ∈ (G.out s).map G.tgt, ∀ e ∈ G.out v, G.tgt e = s)
    (h2 : 2 ≤ (G.out s).length) (state : V → Int) :
    ∃ output, (∃ fuel, inorder true G fuel s state = some output) ∧
      output = [s].intercalate (((G.out s).map G.tgt).map fun v => [v]) ∧
      output.length = 2 * ((G.out s).length + 1) - 3 := by
  obtain ⟨F, -, -, -, -, -, fuel, h4⟩ := orders_of_tree hG hs (fun _ => false) state
  obtain ⟨D', hD⟩ := star_grows (G := G) s (G.out s) {s} rfl hn (by
      rintro e he h
      have h' : G.tgt e = s := h
      exact hself (List.mem_map.mpr ⟨e, he, h'⟩))
    (fun e he => hl _ (List.mem_map_of_mem he))
  have he := inorder_only hG hs ⟨D', hD⟩ h4
  rw [he] at h4
  have hsize : ∀ es : List E, (es.foldr (fun e F => Trees.tree (G.tgt e) .nil F) .nil).size = es.length ∧
      (es.foldr (fun e F => Trees.tree (G.tgt e) .nil F) .nil).inorder = (es.map G.tgt).map fun v => [v] := by
    intro es
    induction es with
    | nil => exact ⟨rfl, rfl⟩
    | cons e es ih =>
      rw [List.foldr_cons, Trees.size, ih.1, Trees.inorder, ih.2]
      exact ⟨rfl, rfl⟩
  have hout : (Trees.tree s ((G.out s).foldr (fun e F => Trees.tree (G.tgt e) .nil F) .nil) .nil).inorder.flatten =
      [s].intercalate (((G.out s).map G.tgt).map fun v => [v]) := by
    rw [Trees.inorder, (hsize _).1, (hsize _).2, if_neg (by omega), Trees.inorder, List.flatten_cons, List.flatten_nil,
      List.append_nil]
  refine ⟨_, ⟨fuel, h4⟩, hout, ?_⟩
  rw [hout, length_intercalate _ _ (by
    intro h
    have := congrArg List.length h
    simp at this
    rw [this] at h2
    simp at h2)]
  have hfl : ∀ es : List E, ((es.map G.tgt).map fun v => [v]).flatten.length = es.length := by
    intro es
    induction es with
    | nil => rfl
    | cons e es ih => simpa using ih
  rw [hfl, List.length_map, List.length_map]
  omega

/-! ### Platforms where `char` is unsigned -/

theorem unsigned_loop (u : V) (es : List E) (s : InorderState V) (hd : ∀ e ∈ es, s.state (G.tgt e) ≠ -1) :
    loop G (inorderPrinter false G) (fun _ => false) (es.length + 1) u es [] s =
      some ((inorderPrinter false G).on (.finish u) s, u) := by
  induction es with
  | nil => rfl
  | cons e es ih =>
    rw [List.length_cons, loop, if_pos (by simpa [inorderPrinter] using hd e List.mem_cons_self)]
    exact ih fun e' he' => hd e' (List.mem_cons_of_mem _ he')

/-- **C110** Where `char` is unsigned, -1 is stored as 255, every vertex counts as discovered from the start, and **only the
source** is put out, whatever the graph. -/
theorem inorder_unsigned_fails (hG : G.WF) {s : V} (hs : s ∈ G.vertices) (state : V → Int) :
    ∃ fuel, inorder false G fuel s state = some [s] := by
  refine ⟨(G.out s).length + 1, ?_⟩
  obtain ⟨h1, h2⟩ := inorder_initAll (G := G) false G.vertices ⟨state, []⟩
  generalize hst : initAll (inorderPrinter false G) G.vertices ⟨state, []⟩ = st at h1 h2
  rw [inorder, dfsFrom, hst, visit]
  rw [if_neg (by simp), unsigned_loop]
  · simp [inorderPrinter, put, h1]
  · intro e he
    have := h2 (G.tgt e)
    rw [if_pos (hG.tgt s hs e he)] at this
    simp only [inorderPrinter, put]
    by_cases h : G.tgt e = s
    · simp [h]
    · rw [if_neg h, this]; simp [toChar]

/-! ### Cases -/

/-- The tree of `tests/graph/traversal/order.cpp`. -/
def sampleTree : Graph Nat (Nat × Nat) where
  vertices := [0, 1, 2, 3, 4, 5, 6]
  out u := match u with
    | 0 => [(0, 1), (0, 2)] | 1 => [(1, 0)] | 2 => [(2, 0), (2, 3), (2, 4), (2, 5)] | 3 => [(3, 2)] | 4 => [(4, 2), (4, 6)]
    | 5 => [(5, 2)] | 6 => [(6, 4)] | _ => []
  src := Prod.fst
  tgt := Prod.snd

theorem sampleTree_wf : sampleTree.WF := ⟨by decide, by decide, by decide⟩

example : inorder true sampleTree 20 0 (fun _ => 0) = some [1, 0, 3, 2, 6, 4, 2, 5] := by decide +kernel
example : inorder false sampleTree 20 0 (fun _ => 0) = some [0] := by decide +kernel
example : ∃ F, DfsTree sampleTree 0 F :=
  (orders_of_tree sampleTree_wf (s := 0) (by decide) (fun _ => false) fun _ => 0).imp fun _ h => h.1

/-- There 2 has three children and is put out twice; 7 vertices, 8 put out, at most 11. -/
example : ∃ F output n, DfsTree sampleTree 0 F ∧ (∃ fuel, inorder true sampleTree fuel 0 (fun _ => 0) = some output) ∧
    (∃ vs : List Nat, vs.Nodup ∧ (∀ v, v ∈ vs ↔ sampleTree.Reach 0 v) ∧ vs.length = n) ∧ n ≤ output.length ∧
    (output.length = n ↔ ∀ d ∈ (Trees.tree 0 F .nil).degrees, d ≤ 2) ∧ (3 ≤ n → output.length ≤ 2 * n - 3) :=
  inorder_length sampleTree_wf (by decide) _

example : ∃ F output, DfsTree sampleTree 0 F ∧ (∃ fuel, inorder true sampleTree fuel 0 (fun _ => 0) = some output) ∧
    (∀ v d, (v, d) ∈ (Trees.tree 0 F .nil).preorder.zip (Trees.tree 0 F .nil).degrees → List.count v output = max 1 (d - 1)) ∧
    (Trees.tree 0 F .nil).degrees.length = (Trees.tree 0 F .nil).preorder.length ∧ ∀ v, v ∈ output ↔ sampleTree.Reach 0 v :=
  inorder_count sampleTree_wf (by decide) _

/-- An undirected binary tree in which 0 has both children, 1 has a left one only. -/
def sampleBinary : Graph Nat (Nat × Nat) where
  vertices := [0, 1, 2, 3]
  out u := match u with | 0 => [(0, 1), (0, 2)] | 1 => [(1, 0), (1, 3)] | 2 => [(2, 0)] | 3 => [(3, 1)] | _ => []
  src := Prod.fst
  tgt := Prod.snd

theorem sampleBinary_wf : sampleBinary.WF := ⟨by decide, by decide, by decide⟩

/-- 3 is the left child of 1: standard. -/
example : ∃ output, (∃ fuel, inorder true sampleBinary fuel 0 (fun _ => 0) = some output) ∧ (output = [3, 1, 0, 2] ↔ True) := by
  have := inorder_binary sampleBinary_wf (l := .node (.node .empty 3 .empty) 1 .empty) (x := 0) (r := .node .empty 2 .empty)
    (by decide) (by simp only [BTree.InGraph]; decide) (by decide) fun _ => 0
  simpa [BTree.LeftFirst, BTree.root, BTree.inorder] using this

/-- 3 is the right child of 1: the standard order 1 3 0 2 is not put out. -/
example : ∃ output, (∃ fuel, inorder true sampleBinary fuel 0 (fun _ => 0) = some output) ∧ output ≠ [1, 3, 0, 2] := by
  have := inorder_binary sampleBinary_wf (l := .node .empty 1 (.node .empty 3 .empty)) (x := 0) (r := .node .empty 2 .empty)
    (by decide) (by simp only [BTree.InGraph]; decide) (by decide) fun _ => 0
  simpa [BTree.LeftFirst, BTree.root, BTree.inorder] using this

/-- A star. -/
def sampleStar : Graph Nat (Nat × Nat) where
  vertices := [0, 1, 2, 3, 4]
  out u := if u = 0 then [(0, 1), (0, 2), (0, 3), (0, 4)] else if u < 5 then [(u, 0)] else []
  src := Prod.fst
  tgt := Prod.snd

example : ∃ output, (∃ fuel, inorder true sampleStar fuel 0 (fun _ => 0) = some output) ∧ output = [1, 0, 2, 0, 3, 0, 4] ∧
    output.length = 7 :=
  inorder_star (G := sampleStar) ⟨by decide, by decide, by decide⟩ (by decide) (by decide) (by decide) (by decide) (by decide) _

end Actl.Traversal
