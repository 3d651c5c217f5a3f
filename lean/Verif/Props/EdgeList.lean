import Verif.Model.EdgeList
import Verif.Spec.Storage
import Verif.Props.Ids

/-! C39 and C40: edge lists, and the far end of an edge. -/

namespace Actl.Storage

open Actl.Ids

/-! ### C40 -/

/-- A value of type `int`. -/
def IsInt (a : Int) : Prop := -2 ^ 31 ≤ a ∧ a < 2 ^ 31

theorem toInt_ofInt {a : Int} (h : IsInt a) : (BitVec.ofInt 32 a).toInt = a := by
  rw [BitVec.toInt_ofInt, Int.bmod_def]; obtain ⟨h1, h2⟩ := h; omega

theorem ofInt_intXor (a b : Int) :
    BitVec.ofInt 32 (intXor a b) = BitVec.ofInt 32 a ^^^ BitVec.ofInt 32 b := BitVec.ofInt_toInt

/-- The xor of the ends gives either end from the other. -/
theorem xorRep_other {u v : Int} (hu : IsInt u) (hv : IsInt v) :
    xorRep.other (xorRep.store u v) u = v ∧ xorRep.other (xorRep.store u v) v = u := by
  simp only [xorRep]
  constructor
  · rw [intXor, ofInt_intXor, ← BitVec.xor_assoc, BitVec.xor_self, BitVec.zero_xor, toInt_ofInt hv]
  · rw [intXor, ofInt_intXor, BitVec.xor_comm, BitVec.xor_assoc, BitVec.xor_self, BitVec.xor_zero,
      toInt_ofInt hu]

/-- Both ends stored: integers. -/
theorem twoRepInt_other {u v : Int} (hu : IsInt u) (hv : IsInt v) :
    twoRepInt.other (twoRepInt.store u v) u = v ∧ twoRepInt.other (twoRepInt.store u v) v = u := by
  simp only [twoRepInt]
  constructor
  · rw [intXor, ofInt_intXor, BitVec.xor_self, BitVec.zero_xor, toInt_ofInt hv]
  · rw [intXor, ofInt_intXor, BitVec.xor_comm, ← BitVec.xor_assoc, BitVec.xor_self, BitVec.zero_xor,
      toInt_ofInt hu]

/-- Both ends stored: any other type of vertices. -/
theorem twoRep_other {V : Type} [DecidableEq V] (u v : V) :
    (twoRep V).other ((twoRep V).store u v) u = v ∧ (twoRep V).other ((twoRep V).store u v) v = u := by
  simp only [twoRep]
  refine ⟨by simp, ?_⟩
  split
  · assumption
  · rfl

/-- Only the target stored: it is what `other` gives, whatever the argument, so the source cannot be
recovered. -/
theorem targetRep_other {V : Type} (u v t : V) : (targetRep V).other ((targetRep V).store u v) t = v := rfl

example : xorRep.other (xorRep.store 5 12) 12 = 5 ∧ twoRepInt.other (twoRepInt.store 7 7) 7 = 7 := by
  decide +kernel

/-! ### C39 -/

variable {V β : Type} [LinearOrder V]

theorem normEnds_eq (un : Bool) (e : V × V × β) : normEnds un e.1 e.2.1 = ends un e := by
  obtain ⟨u, v, b⟩ := e
  unfold normEnds ends
  cases un
  · simp
  · by_cases h : v < u
    · simp [h, min_eq_right (le_of_lt h), max_eq_left (le_of_lt h)]
    · simp [h, min_eq_left (not_lt.mp h), max_eq_right (not_lt.mp h)]

/-- A sequence of calls of `try_add_edge`: the edge list at the end, the edges and the answers
returned. -/
def addAll (ord : Order ((V × V) × β)) : EdgeList (V × V) β → List (V × V × β) →
    EdgeList (V × V) β × List ((V × V × Int) × Bool)
  | el, [] => (el, [])
  | el, e :: es =>
    let r := el.tryAddEdge (twoRep V) endsKey ord e.1 e.2.1 e.2.2
    let rest := addAll ord r.1 es
    (rest.1, r.2 :: rest.2)

/-- What is stored of an edge. -/
def datum (un : Bool) (e : V × V × β) : (V × V) × β := (ends un e, e.2.2)

/-- An edge list holds these edges (in this order, if its container is a sequence). -/
structure Holds (el : EdgeList (V × V) β) (es : List (V × V × β)) : Prop where
  wf : el.cont.WF fun d => endsKey d.1
  perm : el.cont.values.Perm (es.map (datum el.undirected))
  seq : el.cont.kind.assoc = false → el.cont.values = es.map (datum el.undirected)

theorem Holds.length {el : EdgeList (V × V) β} {es} (h : Holds el es) : el.edgeCount = es.length := by
  have := h.perm.length_eq
  simpa [Cont.values, EdgeList.edgeCount] using this

theorem addAll_holds (ord : Order ((V × V) × β)) {calls : List (V × V × β)} :
    ∀ {el : EdgeList (V × V) β} {es : List (V × V × β)}, Holds el es →
    (el.cont.kind.ra = true → es.length + calls.length < 2 ^ 31) →
    let r := addAll ord el calls
    let s := accept el.cont.kind.unique el.undirected es calls
    Holds r.1 s.1 ∧ r.2.map Prod.snd = s.2 ∧ r.1.undirected = el.undirected ∧
      r.1.cont.kind = el.cont.kind ∧
      (∀ id d, el.cont.at id = some d → r.1.cont.at id = some d) ∧
      (∀ (i : Nat) (e : V × V × β) a ok, calls[i]? = some e → r.2[i]? = some (a, ok) →
        (a.1, a.2.1) = ends el.undirected e ∧
        ∃ b, r.1.cont.at a.2.2 = some (ends el.undirected e, b) ∧ (ok = true → b = e.2.2)) := by
  induction calls with
  | nil =>
    intro el es h _
    exact ⟨h, rfl, rfl, rfl, fun _ _ h => h, fun i e a ok hi => absurd hi (by simp)⟩
  | cons e calls ih =>
    intro el es h hf
    have hfit : el.cont.Fits := fun hr => by
      have h1 := hf hr
      have h2 := h.length
      simp only [List.length_cons, EdgeList.edgeCount] at h1 h2; omega
    obtain ⟨h1, h2, h3, h4, h5, h6⟩ := idEmplace_spec ord h.wf hfit
      (((twoRep V).store (ends el.undirected e).1 (ends el.undirected e).2, e.2.2))
    have hstep : el.tryAddEdge (twoRep V) endsKey ord e.1 e.2.1 e.2.2 =
        ({ el with cont := (el.cont.idEmplace (fun d => endsKey d.1) ord
            ((twoRep V).store (ends el.undirected e).1 (ends el.undirected e).2, e.2.2)).1 },
          ((ends el.undirected e).1, (ends el.undirected e).2, (el.cont.idEmplace (fun d => endsKey d.1)
            ord ((twoRep V).store (ends el.undirected e).1 (ends el.undirected e).2, e.2.2)).2.1),
          (el.cont.idEmplace (fun d => endsKey d.1) ord
            ((twoRep V).store (ends el.undirected e).1 (ends el.undirected e).2, e.2.2)).2.2) := by
      simp only [EdgeList.tryAddEdge, normEnds_eq]
    have hmem : (∃ y ∈ el.cont.values, endsKey y.1 = endsKey (ends el.undirected e)) ↔
        ∃ d ∈ es, ends el.undirected d = ends el.undirected e := by
      constructor
      · rintro ⟨y, hy, hk⟩
        obtain ⟨d, hd, rfl⟩ := List.mem_map.mp (h.perm.mem_iff.mp hy)
        exact ⟨d, hd, toLex.injective hk⟩
      · rintro ⟨d, hd, hk⟩
        exact ⟨_, h.perm.mem_iff.mpr (List.mem_map_of_mem hd), congrArg toLex hk⟩
    generalize hr : el.cont.idEmplace (fun d => endsKey d.1) ord
      ((twoRep V).store (ends el.undirected e).1 (ends el.undirected e).2, e.2.2) = r at *
    simp only [addAll, hstep]
    by_cases hdup : el.cont.kind.unique = true ∧ ∃ d ∈ es, ends el.undirected d = ends el.undirected e
    · have hok : r.2.2 = false := h1.mpr ⟨hdup.1, hmem.mpr hdup.2⟩
      obtain ⟨hc, y, hy, hk⟩ := h2 hok
      have hel : ({ el with cont := r.1 } : EdgeList (V × V) β) = el := by rw [hc]
      rw [hel]
      simp only [accept, if_pos hdup]
      obtain ⟨g1, g2, g3, g4, g5, g6⟩ := ih h (fun hr => by
        have := hf hr; simp only [List.length_cons] at this; omega)
      refine ⟨g1, by rw [List.map_cons, g2, hok], g3, g4, g5, ?_⟩
      intro i e' a ok hi ha
      rcases i with _ | i
      · simp only [List.getElem?_cons_zero, Option.some.injEq] at hi ha
        subst hi
        have e1 : a = _ := (congrArg Prod.fst ha).symm
        have e2 : ok = _ := (congrArg Prod.snd ha).symm
        subst e1
        refine ⟨rfl, y.2, ?_, fun hc => by rw [e2, hok] at hc; simp at hc⟩
        have : y.1 = ends el.undirected e := toLex.injective hk
        rw [← this]; exact g5 _ _ hy
      · simp only [List.getElem?_cons_succ] at hi ha
        exact g6 i e' a ok hi ha
    · have hok : r.2.2 = true := by
        rw [← Bool.not_eq_false]; intro hc
        exact hdup ⟨(h1.mp hc).1, hmem.mp (h1.mp hc).2⟩
      obtain ⟨a1, -, a2, a3⟩ := h3 hok
      have hh : Holds ({ el with cont := r.1 } : EdgeList (V × V) β) (es ++ [e]) := by
        refine ⟨h5, ?_, ?_⟩
        · rw [List.map_append]
          exact a2.trans ((List.Perm.cons _ h.perm).trans (List.perm_append_comm (l₁ := [_])))
        · intro ha
          have ha : el.cont.kind.assoc = false := by rw [← h6]; exact ha
          show r.1.values = _
          rw [a3 ha, h.seq ha, List.map_append]; rfl
      have hk : el.cont.kind.unique = ({ el with cont := r.1 } : EdgeList (V × V) β).cont.kind.unique := by
        rw [h6]
      simp only [accept, if_neg hdup]
      obtain ⟨g1, g2, g3, g4, g5, g6⟩ := ih hh (fun hr => by
        have := hf (by rw [← h6]; exact hr)
        simp only [List.length_cons, List.length_append, List.length_nil] at this ⊢; omega)
      rw [← hk] at g1 g2
      refine ⟨g1, by rw [List.map_cons, g2, hok], g3, g4.trans h6, fun id d hd => g5 id d (h4 id d hd), ?_⟩
      intro i e' a ok hi ha
      rcases i with _ | i
      · simp only [List.getElem?_cons_zero, Option.some.injEq] at hi ha
        subst hi
        have e1 : a = _ := (congrArg Prod.fst ha).symm
        subst e1
        exact ⟨rfl, e.2.2, g5 _ _ a1, fun _ => rfl⟩
      · simp only [List.getElem?_cons_succ] at hi ha
        exact g6 i e' a ok hi ha

/-- `edges()` of an edge list: every stored edge exactly once, with the id that designates it. -/
theorem edges_spec {el : EdgeList (V × V) β} {es : List (V × V × β)} (h : Holds el es)
    (hf : el.cont.Fits) : ∃ l, el.edges = some l ∧ (l.map fun a => a.2.2).Nodup ∧
      (l.map fun a => (a.1, a.2.1)).Perm (es.map (ends el.undirected)) ∧
      (el.cont.kind.assoc = false → (l.map fun a => (a.1, a.2.1)) = es.map (ends el.undirected)) ∧
      ∀ a ∈ l, ∃ b, el.cont.at a.2.2 = some ((a.1, a.2.1), b) := by
  obtain ⟨ids, h1, h2, h3, h4, -, -⟩ := ids_spec h.wf hf
  have key : ∀ l : List Int, (∀ id ∈ l, (el.cont.at id).isSome) →
      ∃ m, (l.mapM fun id => (el.cont.at id).map fun d => (d.1.1, d.1.2, id)) = some m ∧
        m.map (fun a : V × V × Int => a.2.2) = l ∧
        m.map (fun a => some (a.1, a.2.1)) = l.map (fun id => (el.cont.at id).map Prod.fst) ∧
        ∀ a ∈ m, ∃ b, el.cont.at a.2.2 = some ((a.1, a.2.1), b) := by
    intro l
    induction l with
    | nil => intro _; exact ⟨[], rfl, rfl, rfl, fun a ha => absurd ha List.not_mem_nil⟩
    | cons id l ih =>
      intro hl
      obtain ⟨m, m1, m2, m3, m4⟩ := ih fun j hj => hl j (List.mem_cons_of_mem _ hj)
      obtain ⟨⟨⟨a, b⟩, x⟩, hd⟩ := Option.isSome_iff_exists.mp (hl id (List.mem_cons_self ..))
      refine ⟨(a, b, id) :: m, ?_, by simp [m2], by simp [hd, m3], ?_⟩
      · rw [List.mapM_cons, m1, hd]; rfl
      · intro c hc
        rcases List.mem_cons.mp hc with rfl | hc
        · exact ⟨x, hd⟩
        · exact m4 c hc
  obtain ⟨m, m1, m2, m3, m4⟩ := key ids fun id hid => (h4 id).mp hid
  have hm : m.map (fun a => (a.1, a.2.1)) = el.cont.values.map Prod.fst := by
    have e : (ids.map el.cont.at).map (Option.map Prod.fst) = el.cont.values.map (fun d => some d.1) := by
      rw [h3, List.map_map]; rfl
    rw [List.map_map] at e
    have : m.map (fun a => some (a.1, a.2.1)) = el.cont.values.map (fun d => some d.1) := m3.trans e
    have inj : Function.Injective (List.map (some : V × V → Option (V × V))) :=
      List.map_injective_iff.mpr (Option.some_injective _)
    apply inj
    rw [List.map_map, List.map_map]; exact this
  have hv : ∀ l : List (V × V × β), (l.map (datum el.undirected)).map Prod.fst = l.map (ends el.undirected) := by
    intro l; rw [List.map_map]; rfl
  refine ⟨m, ?_, by rw [m2]; exact h2, ?_, ?_, m4⟩
  · simp only [EdgeList.edges, h1]; exact m1
  · rw [hm, ← hv]; exact h.perm.map _
  · intro ha; rw [hm, h.seq ha, hv]

/-- `find_edge` gives a valid id exactly if an edge with these ends is stored; the id is that of such
an edge, and `id_end` otherwise. -/
theorem findEdge_spec {el : EdgeList (V × V) β} {es : List (V × V × β)} (h : Holds el es)
    (hf : el.cont.Fits) (u v : V) (b0 : β) :
    let a := el.findEdge u v
    (a.1, a.2.1) = ends el.undirected (u, v, b0) ∧
    ((∃ d ∈ es, ends el.undirected d = ends el.undirected (u, v, b0)) →
      ∃ b, el.cont.at a.2.2 = some (ends el.undirected (u, v, b0), b)) ∧
    ((∀ d ∈ es, ends el.undirected d ≠ ends el.undirected (u, v, b0)) →
      a.2.2 = el.cont.idEnd ∧ el.cont.at a.2.2 = none) := by
  have hn := normEnds_eq el.undirected (u, v, b0)
  simp only at hn
  simp only [EdgeList.findEdge, hn]
  obtain ⟨h1, h2⟩ := idFind_spec h.wf hf (endsKey (ends el.undirected (u, v, b0)))
  refine ⟨trivial, ?_, ?_⟩
  · rintro ⟨d, hd, he⟩
    obtain ⟨e, hs⟩ := h1 ⟨_, h.perm.mem_iff.mpr (List.mem_map_of_mem hd), congrArg toLex he⟩
    obtain ⟨x, hx⟩ := Option.isSome_iff_exists.mp hs
    rw [hx] at e
    have := List.find?_some e.symm
    have hk : endsKey x.1 = endsKey (ends el.undirected (u, v, b0)) := of_decide_eq_true this
    exact ⟨x.2, by rw [hx, ← (toLex.injective hk : x.1 = _)]⟩
  · intro hne
    have e := h2 fun y hy hk => by
      obtain ⟨d, hd, rfl⟩ := List.mem_map.mp (h.perm.mem_iff.mp hy)
      exact hne d hd (toLex.injective hk)
    refine ⟨e, ?_⟩
    rw [e]
    obtain ⟨_, _, _, _, _, _, hend⟩ := ids_spec h.wf hf
    exact hend

/-- C39.  After any sequence of calls of `try_add_edge` on an empty edge list: the answers are those of
the specification, `edge_count` is the number of positive ones, `edges()` gives exactly the stored
edges, each once (in order for a sequence), every edge returned designates an edge with the ends given,
with the bundle given if it was added, and `find_edge` finds exactly what is stored. -/
theorem edgeList_history (ord : Order ((V × V) × β)) (k : Kind) (un : Bool) (calls : List (V × V × β))
    (hf : k = .vec → calls.length < 2 ^ 31) :
    let r := addAll ord ⟨un, Cont.empty k⟩ calls
    let s := accept k.unique un [] calls
    r.2.map Prod.snd = s.2 ∧
    r.1.edgeCount = s.2.count true ∧
    (∃ l, r.1.edges = some l ∧ (l.map fun a => a.2.2).Nodup ∧
      (l.map fun a => (a.1, a.2.1)).Perm (s.1.map (ends un)) ∧
      (k.assoc = false → (l.map fun a => (a.1, a.2.1)) = s.1.map (ends un))) ∧
    (∀ (i : Nat) (e : V × V × β) a ok, calls[i]? = some e → r.2[i]? = some (a, ok) →
        (a.1, a.2.1) = ends un e ∧
        ∃ b, r.1.cont.at a.2.2 = some (ends un e, b) ∧ (ok = true → b = e.2.2)) ∧
    ∀ e : V × V × β, ((∃ d ∈ s.1, ends un d = ends un e) ↔
        (r.1.cont.at (r.1.findEdge e.1 e.2.1).2.2).isSome) ∧
      ((r.1.cont.at (r.1.findEdge e.1 e.2.1).2.2).isSome →
        ∃ b, r.1.cont.at (r.1.findEdge e.1 e.2.1).2.2 = some (ends un e, b)) := by
  intro r s
  have h0 : Holds (⟨un, Cont.empty k⟩ : EdgeList (V × V) β) [] :=
    ⟨Cont.WF.empty _ _, List.Perm.refl _, fun _ => rfl⟩
  have hra : k.ra = true → k = .vec := by cases k <;> simp [Kind.ra]
  obtain ⟨g1, g2, g3, g4, -, g6⟩ := addAll_holds ord h0 (fun hr => by
    have := hf (hra hr); simpa using this)
  have hcount : ∀ (calls st : List (V × V × β)), (accept k.unique un st calls).1.length =
      st.length + (accept k.unique un st calls).2.count true := by
    intro calls
    induction calls with
    | nil => intro st; simp [accept]
    | cons e calls ih =>
      intro st
      simp only [accept]
      split
      · simp [ih]
      · simp [ih]; omega
  have hle : ∀ (calls st : List (V × V × β)), (accept k.unique un st calls).1.length ≤
      st.length + calls.length := by
    intro calls
    induction calls with
    | nil => intro st; simp [accept]
    | cons e calls ih =>
      intro st
      simp only [accept]
      split
      · have := ih st; simp only [List.length_cons]; omega
      · have := ih (st ++ [e])
        simp only [List.length_cons, List.length_append, List.length_nil] at this ⊢; omega
  have hu : r.1.undirected = un := g3
  have hfit : r.1.cont.Fits := fun hr => by
    have h1 := g1.length
    have h2 := hle calls []
    have h3 := hf (hra (by rw [← show r.1.cont.kind = k from g4]; exact hr))
    have h1 : r.1.cont.items.length = (accept k.unique un [] calls).1.length := h1
    simp only [List.length_nil] at h2
    omega
  refine ⟨g2, ?_, ?_, g6, ?_⟩
  · have h1 := g1.length
    have h2 := hcount calls []
    simp only [List.length_nil, Nat.zero_add] at h2
    exact h1.trans h2
  · obtain ⟨l, l1, l2, l3, l4, -⟩ := edges_spec g1 hfit
    rw [show (addAll ord ⟨un, Cont.empty k⟩ calls).1.undirected = un from g3] at l3 l4
    exact ⟨l, l1, l2, l3, fun ha => l4 (by rw [g4]; exact ha)⟩
  · intro e
    have hfe := findEdge_spec g1 hfit e.1 e.2.1 e.2.2
    rw [show (addAll ord ⟨un, Cont.empty k⟩ calls).1.undirected = un from g3] at hfe
    obtain ⟨-, f1, f2⟩ := hfe
    by_cases hex : ∃ d ∈ s.1, ends un d = ends un e
    · obtain ⟨b, hb⟩ := f1 hex
      exact ⟨⟨fun _ => Option.isSome_iff_exists.mpr ⟨_, hb⟩, fun _ => hex⟩, fun _ => ⟨b, hb⟩⟩
    · have hn := f2 fun d hd he => hex ⟨d, hd, he⟩
      have : r.1.cont.at (r.1.findEdge e.1 e.2.1).2.2 = none := hn.2
      rw [this]
      exact ⟨⟨fun h => absurd h hex, fun h => by simp at h⟩, fun h => by simp at h⟩

/-- Removing an edge returned by `edges()` or `find_edge` removes exactly that edge from those
stored. -/
theorem removeEdge_spec {el : EdgeList (V × V) β} (hw : el.cont.WF fun d => endsKey d.1)
    {e : V × V × Int} {d : (V × V) × β} (h : el.cont.at e.2.2 = some d) :
    ∃ el', el.removeEdge e = some el' ∧ el'.undirected = el.undirected ∧
      (d :: el'.cont.values).Perm el.cont.values ∧ el'.edgeCount + 1 = el.edgeCount := by
  obtain ⟨c, h1, -, h3, -, -⟩ := idErase_spec hw h
  refine ⟨{ el with cont := c }, by simp [EdgeList.removeEdge, h1], rfl, h3, ?_⟩
  have := h3.length_eq
  simpa [Cont.values, EdgeList.edgeCount] using this

/-! Examples: an undirected edge list in a set refuses the reversed edge; in a vector it does not. -/

def plainOrder : Order ((Nat × Nat) × String) := ⟨fun _ l => l, fun _ l => List.Perm.refl l⟩

example : (addAll plainOrder ⟨true, Cont.empty .set⟩ [(2, 1, "a"), (3, 3, "b"), (1, 2, "c")]).2 =
    [((1, 2, 0), true), ((3, 3, 1), true), ((1, 2, 0), false)] := by decide +kernel
example : (addAll plainOrder ⟨true, Cont.empty .vec⟩ [(2, 1, "a"), (3, 3, "b"), (1, 2, "c")]).1.edges =
    some [(1, 2, 0), (3, 3, 1), (1, 2, 2)] := by decide +kernel
example : (addAll plainOrder ⟨false, Cont.empty .hashSet⟩ [(2, 1, "a"), (1, 2, "c")]).1.edgeCount = 2 := by
  decide +kernel

end Actl.Storage
