import Verif.Lemmas.TensorObjects

/-!
# C122: tensors as objects

Programs that construct, copy, move, assign, swap and destroy tensors, take views and write through them show
what the specification says, where an element is found by its index tuple and not by a cell of the storage.  Then what is wrong:
lists of dimensions of the wrong length, dimensions whose product does not fit in `size_t`, and `size()` of a tensor that was moved
from.
-/

namespace Actl.TensorObj

open Actl.Tensor

variable {α : Type}

/-- An object in the code and in the specification. -/
def ObjRel (mem : List (Option (Contents α))) : Option SObj → Option Obj → Prop
  | none, none => True
  | some ⟨ty, none⟩, some o => o.ty = ty ∧ o.data = none ∧ inArray ty = false ∧ ty.small = false
  | some ⟨ty, some c⟩, some o =>
    ∃ k, mem[c]? = some (some k) ∧ o = ⟨ty, k.dims, some c⟩ ∧ ty.Admits k.dims = true ∧ inArray ty = ty.small
  | _, _ => False

structure Rel (m : State α) (s : SState α) : Prop where
  lo : m.objs.length = s.objs.length
  lb : m.blocks.length = s.mem.length
  lv : m.views.length = s.views.length
  mem : ∀ (b : Nat) (k : Contents α), s.mem[b]? = some (some k) → ∃ cells, m.blocks[b]? = some (some cells) ∧ Holds cells k
  obj : ∀ (x : Nat) (so : Option SObj), s.objs[x]? = some so → ∃ mo, m.objs[x]? = some mo ∧ ObjRel s.mem so mo
  inj : ∀ (x y : Nat) (t u : Ty) (c : Nat), s.objs[x]? = some (some ⟨t, some c⟩) → s.objs[y]? = some (some ⟨u, some c⟩) → x = y
  view : ∀ (v : Nat) (sv : SView), s.views[v]? = some sv → ∃ w, m.views[v]? = some w ∧ w.data = some sv.contents ∧ w.fixed = sv.fixed ∧
    sv.contents < s.mem.length ∧ ∀ k, s.mem[sv.contents]? = some (some k) → VRel k.dims sv w

theorem get_push {β : Type} {l : List β} {a b : β} {i : Nat} (h : (l ++ [a])[i]? = some b) :
    l[i]? = some b ∨ (i = l.length ∧ a = b) := by
  by_cases hi : i < l.length
  · rw [List.getElem?_append_left hi] at h; exact .inl h
  · rw [List.getElem?_append_right (by omega)] at h
    by_cases e : i - l.length = 0
    · rw [e] at h
      simp at h
      exact .inr ⟨by omega, h⟩
    · rw [List.getElem?_eq_none (by simp; omega)] at h; cases h

theorem get_push_left {β : Type} {l : List β} {a b : β} {i : Nat} (h : l[i]? = some b) : (l ++ [a])[i]? = some b := by
  rw [List.getElem?_append_left]
  · exact h
  · exact (List.getElem?_eq_some_iff.mp h).1

theorem get_set {β : Type} {l : List β} {a b : β} {i j : Nat} (h : (l.set i a)[j]? = some b) :
    (j = i ∧ i < l.length ∧ a = b) ∨ (j ≠ i ∧ l[j]? = some b) := by
  by_cases e : i = j
  · subst e
    by_cases hi : i < l.length
    · rw [List.getElem?_set_self hi] at h
      exact .inl ⟨rfl, hi, Option.some.inj h⟩
    · rw [List.getElem?_eq_none (by simp; omega)] at h; cases h
  · rw [List.getElem?_set_ne e] at h
    exact .inr ⟨fun g => e g.symm, h⟩

theorem lt_of_get {β : Type} {l : List β} {i : Nat} {b : β} (h : l[i]? = some b) : i < l.length :=
  (List.getElem?_eq_some_iff.mp h).1

/-- The object relation only looks at the dimensions of the contents. -/
theorem ObjRel.mono {mem mem' : List (Option (Contents α))} {so : Option SObj} {mo : Option Obj} (h : ObjRel mem so mo)
    (hm : ∀ (t : Ty) (c : Nat) (k : Contents α), so = some ⟨t, some c⟩ → mem[c]? = some (some k) →
      ∃ k', mem'[c]? = some (some k') ∧ k'.dims = k.dims) : ObjRel mem' so mo := by
  match so, mo, h with
  | none, none, _ => trivial
  | some ⟨ty, none⟩, some o, h => exact h
  | some ⟨ty, some c⟩, some o, h =>
    obtain ⟨k, h1, h2, h3, h4⟩ := h
    obtain ⟨k', h5, h6⟩ := hm ty c k rfl h1
    exact ⟨k', h5, by rw [h6]; exact h2, by rw [h6]; exact h3, h4⟩

theorem ObjRel.none_iff {mem : List (Option (Contents α))} {mo : Option Obj} (h : ObjRel mem none mo) : mo = none := by
  cases mo with
  | none => rfl
  | some => exact h.elim

theorem Rel.owned {m : State α} {s : SState α} (r : Rel m s) {x : Nat} {ty : Ty} {c : Nat}
    (h : s.objs[x]? = some (some ⟨ty, some c⟩)) : ∃ k cells, s.mem[c]? = some (some k) ∧ m.blocks[c]? = some (some cells) ∧
      Holds cells k ∧ m.objs[x]? = some (some ⟨ty, k.dims, some c⟩) ∧ ty.Admits k.dims = true ∧ inArray ty = ty.small := by
  obtain ⟨mo, h1, h2⟩ := r.obj x _ h
  cases mo with
  | none => exact h2.elim
  | some o =>
    obtain ⟨k, h3, h4, h5, h6⟩ := h2
    obtain ⟨cells, h7, h8⟩ := r.mem c k h3
    subst h4
    exact ⟨k, cells, h3, h7, h8, h1, h5, h6⟩

theorem Rel.moved {m : State α} {s : SState α} (r : Rel m s) {x : Nat} {ty : Ty}
    (h : s.objs[x]? = some (some ⟨ty, none⟩)) : ∃ dims, m.objs[x]? = some (some ⟨ty, dims, none⟩) ∧ inArray ty = false ∧
      ty.small = false := by
  obtain ⟨mo, h1, h2⟩ := r.obj x _ h
  cases mo with
  | none => exact h2.elim
  | some o =>
    obtain ⟨ty', dims, data⟩ := o
    obtain ⟨h3, h4, h5, h6⟩ := h2
    simp only at h3 h4
    subst h3 h4
    exact ⟨dims, h1, h5, h6⟩

/-- A new tensor with new contents. -/
theorem Rel.push {m : State α} {s : SState α} (r : Rel m s) {ty : Ty} {k : Contents α} {cells : List (Option α)}
    (hk : Holds cells k) (ha : ty.Admits k.dims = true) (hi : inArray ty = ty.small) :
    Rel { m with objs := m.objs ++ [some ⟨ty, k.dims, some m.blocks.length⟩], blocks := m.blocks ++ [some cells] }
      { s with objs := s.objs ++ [some ⟨ty, some s.mem.length⟩], mem := s.mem ++ [some k] } := by
  refine ⟨by simp [r.lo], by simp [r.lb], r.lv, ?_, ?_, ?_, ?_⟩
  · intro b k' h
    rcases get_push h with h | ⟨h1, h2⟩
    · obtain ⟨c, h3, h4⟩ := r.mem b k' h
      exact ⟨c, get_push_left h3, h4⟩
    · cases h2
      refine ⟨cells, ?_, hk⟩
      rw [h1, ← r.lb]
      simp
  · intro x so h
    rcases get_push h with h | ⟨h1, h2⟩
    · obtain ⟨mo, h3, h4⟩ := r.obj x so h
      exact ⟨mo, get_push_left h3, h4.mono fun t c k _ h => ⟨k, get_push_left h, rfl⟩⟩
    · subst h2
      exact ⟨some ⟨ty, k.dims, some m.blocks.length⟩, by rw [h1, ← r.lo]; simp, k, by simp, by rw [r.lb], ha, hi⟩
  · intro x y t u c h1 h2
    have key : ∀ (z : Nat) (v : Ty), s.objs[z]? = some (some ⟨v, some s.mem.length⟩) → False := by
      intro z v h
      obtain ⟨k, _, hk, _⟩ := r.owned h
      have := lt_of_get hk
      omega
    rcases get_push h1 with h1 | ⟨h1, e1⟩ <;> rcases get_push h2 with h2 | ⟨h2, e2⟩
    · exact r.inj x y t u c h1 h2
    · cases e2; exact (key _ _ h1).elim
    · cases e1; exact (key _ _ h2).elim
    · omega
  · intro v sv h
    obtain ⟨w, h1, h2, h3, h4, h5⟩ := r.view v sv h
    refine ⟨w, h1, h2, h3, by simp; omega, fun k' hk' => ?_⟩
    rcases get_push hk' with h | ⟨e, _⟩
    · exact h5 k' h
    · omega

/-- Other contents with the same dimensions in the same place. -/
theorem Rel.setMem {m : State α} {s : SState α} (r : Rel m s) {c : Nat} {k k' : Contents α} {cells : List (Option α)}
    (h : s.mem[c]? = some (some k)) (hd : k'.dims = k.dims) (hk : Holds cells k') :
    Rel { m with blocks := m.blocks.set c (some cells) } { s with mem := s.mem.set c (some k') } := by
  have hc := lt_of_get h
  have keep : ∀ (c' : Nat) (k₁ : Contents α), s.mem[c']? = some (some k₁) → ∃ k₂, (s.mem.set c (some k'))[c']? = some (some k₂) ∧
      k₂.dims = k₁.dims := by
    intro c' k₁ h1
    by_cases e : c = c'
    · subst e
      rw [h] at h1
      cases h1
      exact ⟨k', List.getElem?_set_self hc, hd⟩
    · exact ⟨k₁, by rw [List.getElem?_set_ne e]; exact h1, rfl⟩
  refine ⟨r.lo, by simp [r.lb], r.lv, ?_, ?_, r.inj, ?_⟩
  · intro b k₁ h1
    rcases get_set h1 with ⟨e, _, h2⟩ | ⟨e, h2⟩
    · subst e
      cases h2
      exact ⟨cells, List.getElem?_set_self (by rw [r.lb]; exact hc), hk⟩
    · obtain ⟨c', h3, h4⟩ := r.mem b k₁ h2
      exact ⟨c', by rw [List.getElem?_set_ne (Ne.symm e)]; exact h3, h4⟩
  · intro x so h1
    obtain ⟨mo, h2, h3⟩ := r.obj x so h1
    exact ⟨mo, h2, h3.mono fun _ c' k₁ _ g => keep c' k₁ g⟩
  · intro v sv h1
    obtain ⟨w, h2, h3, h4, h5, h6⟩ := r.view v sv h1
    refine ⟨w, h2, h3, h4, by simpa using h5, fun k₁ hk₁ => ?_⟩
    rcases get_set hk₁ with ⟨e, _, g⟩ | ⟨e, g⟩
    · cases g
      rw [hd]
      exact h6 k (by rw [e]; exact h)
    · exact h6 k₁ g

/-- The end of contents that no tensor has any more. -/
theorem Rel.freeMem {m : State α} {s : SState α} (r : Rel m s) {c : Nat}
    (h : ∀ (x : Nat) (t : Ty), s.objs[x]? ≠ some (some ⟨t, some c⟩)) :
    Rel { m with blocks := m.blocks.set c none } { s with mem := s.mem.set c none } := by
  refine ⟨r.lo, by simp [r.lb], r.lv, ?_, ?_, r.inj, ?_⟩
  · intro b k₁ h1
    rcases get_set h1 with ⟨e, _, h2⟩ | ⟨e, h2⟩
    · cases h2
    · obtain ⟨c', h3, h4⟩ := r.mem b k₁ h2
      exact ⟨c', by rw [List.getElem?_set_ne (Ne.symm e)]; exact h3, h4⟩
  · intro x so h1
    obtain ⟨mo, h2, h3⟩ := r.obj x so h1
    refine ⟨mo, h2, h3.mono fun t c' k₁ e g => ⟨k₁, ?_, rfl⟩⟩
    rw [List.getElem?_set_ne]
    · exact g
    · rintro rfl
      exact h x t (by rw [h1, e])
  · intro v sv h1
    obtain ⟨w, h2, h3, h4, h5, h6⟩ := r.view v sv h1
    refine ⟨w, h2, h3, h4, by simpa using h5, fun k₁ hk₁ => ?_⟩
    rcases get_set hk₁ with ⟨e, _, g⟩ | ⟨e, g⟩
    · cases g
    · exact h6 k₁ g

/-- Other objects. -/
theorem Rel.setObjs {m : State α} {s : SState α} (r : Rel m s) {mo : List (Option Obj)} {so : List (Option SObj)}
    (hl : mo.length = so.length) (ho : ∀ (x : Nat) (a : Option SObj), so[x]? = some a → ∃ b, mo[x]? = some b ∧ ObjRel s.mem a b)
    (hi : ∀ (x y : Nat) (t u : Ty) (c : Nat), so[x]? = some (some ⟨t, some c⟩) → so[y]? = some (some ⟨u, some c⟩) → x = y) :
    Rel { m with objs := mo } { s with objs := so } :=
  ⟨hl, r.lb, r.lv, r.mem, ho, hi, r.view⟩

/-- One object changed. -/
theorem Rel.setObj {m : State α} {s : SState α} (r : Rel m s) {x : Nat} {a : Option SObj} {b : Option Obj}
    (h : ObjRel s.mem a b) (hi : ∀ (y : Nat) (t u : Ty) (c : Nat), a = some ⟨t, some c⟩ → s.objs[y]? = some (some ⟨u, some c⟩) → y = x) :
    Rel { m with objs := m.objs.set x b } { s with objs := s.objs.set x a } := by
  refine r.setObjs (by simp [r.lo]) ?_ ?_
  · intro y a' h1
    rcases get_set h1 with ⟨e, e2, h2⟩ | ⟨e, h2⟩
    · subst e h2
      exact ⟨b, List.getElem?_set_self (by rw [r.lo]; exact e2), h⟩
    · obtain ⟨mo, h3, h4⟩ := r.obj y a' h2
      exact ⟨mo, by rw [List.getElem?_set_ne (Ne.symm e)]; exact h3, h4⟩
  · intro y z t u c h1 h2
    rcases get_set h1 with ⟨e, _, h3⟩ | ⟨e, h3⟩ <;> rcases get_set h2 with ⟨e', _, h4⟩ | ⟨e', h4⟩
    · rw [e, e']
    · rw [e]; exact (hi z t u c h3 h4).symm
    · rw [e']; exact hi y u t c h4 h3
    · exact r.inj y z t u c h3 h4

/-- A tensor added that has contents of nobody. -/
theorem Rel.pushObj {m : State α} {s : SState α} (r : Rel m s) {a : Option SObj} {b : Option Obj}
    (h : ObjRel s.mem a b) (hi : ∀ (y : Nat) (t u : Ty) (c : Nat), a = some ⟨t, some c⟩ → s.objs[y]? ≠ some (some ⟨u, some c⟩)) :
    Rel { m with objs := m.objs ++ [b] } { s with objs := s.objs ++ [a] } := by
  refine r.setObjs (by simp [r.lo]) ?_ ?_
  · intro y a' h1
    rcases get_push h1 with h2 | ⟨e, h2⟩
    · obtain ⟨mo, h3, h4⟩ := r.obj y a' h2
      exact ⟨mo, get_push_left h3, h4⟩
    · subst h2
      exact ⟨b, by rw [e, ← r.lo]; simp, h⟩
  · intro y z t u c h1 h2
    rcases get_push h1 with h3 | ⟨e, h3⟩ <;> rcases get_push h2 with h4 | ⟨e', h4⟩
    · exact r.inj y z t u c h3 h4
    · exact (hi y u t c h4 h3).elim
    · exact (hi z t u c h3 h4).elim
    · omega

/-- A tensor or view found. -/
theorem Rel.find {m : State α} {s : SState α} (r : Rel m s) {h : Handle} {sv : SView} {k : Contents α}
    (hr : s.resolve h = some (sv, k)) : ∃ w cells, m.find h = some w ∧ w.data = some sv.contents ∧ w.fixed = sv.fixed ∧
      VRel k.dims sv w ∧ s.mem[sv.contents]? = some (some k) ∧ m.blocks[sv.contents]? = some (some cells) ∧
      m.block w = some (sv.contents, cells) ∧ Holds cells k := by
  unfold SState.resolve at hr
  simp only [Option.bind_eq_bind, Option.bind_eq_some_iff, Option.pure_def, Option.some.injEq, Prod.mk.injEq] at hr
  obtain ⟨sv', h1, a, h2, k', h3, h4, h5⟩ := hr
  subst h3 h4 h5
  obtain ⟨cells, g1, g2⟩ := r.mem _ _ h2
  have blk : ∀ w : VObj, w.data = some sv'.contents → m.block w = some (sv'.contents, cells) := by
    intro w hw
    simp [State.block, hw, g1]
  cases h with
  | view v =>
    obtain ⟨w, h3, h4, h5, _, h6⟩ := r.view v sv' h1
    exact ⟨w, cells, h3, h4, h5, h6 _ h2, h2, g1, blk w h4, g2⟩
  | obj x =>
    simp only [SState.find, Option.bind_eq_bind, Option.bind_eq_some_iff, Option.pure_def, Option.some.injEq] at h1
    obtain ⟨b, e1, o, e2, c, e3, e4⟩ := h1
    subst e4 e2
    obtain ⟨ty, oc⟩ := o
    simp only at e3
    subst e3
    obtain ⟨k2, _, f1, f2, _, f4, _⟩ := r.owned e1
    simp only at h2 f1
    rw [h2] at f1
    simp only [Option.some.injEq] at f1
    subst f1
    refine ⟨⟨some c, ⟨k'.dims.length, k'.dims, 0⟩, _⟩, cells, ?_, rfl, rfl, ?_, h2, g1, blk _ rfl, g2⟩
    · simp only [State.find, f4, Option.bind_eq_bind, Option.bind_some]
      cases ty <;> rfl
    · exact ⟨by simp [InRange], by simp [flat]⟩

/-- Views added. -/
theorem Rel.pushView {m : State α} {s : SState α} (r : Rel m s) {sv : SView} {w : VObj} (h1 : w.data = some sv.contents)
    (h2 : w.fixed = sv.fixed) {k : Contents α} (h3 : s.mem[sv.contents]? = some (some k)) (h4 : VRel k.dims sv w) :
    Rel { m with views := m.views ++ [w] } { s with views := s.views ++ [sv] } := by
  refine ⟨r.lo, r.lb, by simp [r.lv], r.mem, r.obj, r.inj, ?_⟩
  intro v sv' hv
  rcases get_push hv with hv | ⟨e, hv⟩
  · obtain ⟨w', g1, g2⟩ := r.view v sv' hv
    exact ⟨w', get_push_left g1, g2⟩
  · subst hv
    refine ⟨w, by rw [e, ← r.lv]; simp, h1, h2, lt_of_get h3, fun k' hk' => ?_⟩
    rw [h3] at hk'
    simp only [Option.some.injEq] at hk'
    subst hk'
    exact h4

theorem admits_dims {ty : Ty} {a b : List Nat} (hs : ty.small = true) (ha : ty.Admits a = true) (hb : ty.Admits b = true) :
    a = b := by
  cases ty with
  | fixed ds =>
    simp only [Ty.Admits, decide_eq_true_eq] at ha hb
    rw [ha, hb]
  | rank => simp [Ty.small] at hs
  | dynamic => simp [Ty.small] at hs

theorem inArray_small {ty : Ty} {dims : List Nat} (ha : ty.Admits dims = true) (hv : volume dims < 2 ^ 64) :
    inArray ty = ty.small := by
  cases ty with
  | fixed ds =>
    simp only [Ty.Admits, decide_eq_true_eq] at ha
    subst ha
    have : computeProduct dims = volume dims := by rw [computeProduct_eq, Nat.mod_eq_of_lt hv]
    rw [inArray, Ty.small, this, ← decide_not]
    exact decide_eq_decide.mpr (by omega)
  | rank => rfl
  | dynamic => rfl

theorem makeDims_eq {ty : Ty} {dims : List Nat} (ha : ty.Admits dims = true) : makeDims ty dims = some dims := by
  cases ty with
  | fixed ds =>
    simp only [Ty.Admits, decide_eq_true_eq] at ha
    simp [makeDims, ha]
  | rank n =>
    simp only [Ty.Admits, decide_eq_true_eq] at ha
    rw [makeDims, if_pos ⟨ha.1, by omega⟩, ← ha.2, List.take_length]
  | dynamic => rfl

/-- One statement: the code does what the specification says. -/
theorem Rel.step {m : State α} {s s' : SState α} (r : Rel m s) {c : Stmt α} {o : Option (Obs α)}
    (h : s.step c = some (s', o)) : ∃ m', m.step c = some (m', o) ∧ Rel m' s' := by
  cases c with
  | make ty dims i =>
    simp only [SState.step] at h
    by_cases hc : ty.Admits dims ∧ volume dims < 2 ^ 64 ∧ dims.all (· < 2 ^ 64)
    · rw [if_pos hc] at h
      simp only [Option.map_eq_some_iff, Prod.mk.injEq] at h
      obtain ⟨f, h1, h2, h3⟩ := h
      subst h2 h3
      obtain ⟨cells, h4, h5⟩ := holds_make h1 hc.2.1 (by simpa using hc.2.2)
      refine ⟨_, ?_, r.push h5 hc.1 (inArray_small hc.1 hc.2.1)⟩
      simp [State.step, makeDims_eq hc.1, h4]
    · rw [if_neg hc] at h; cases h
  | copy x =>
    simp only [SState.step, Option.bind_eq_bind, Option.bind_eq_some_iff, Option.pure_def] at h
    obtain ⟨a, h1, ⟨ty, oc⟩, h2, c, h3, b, h4, k, h5, h6⟩ := h
    simp only at h3
    subst h2 h3 h5
    obtain ⟨k2, cells, f1, f2, f3, f4, f5, f6⟩ := r.owned h1
    rw [h4] at f1
    simp only [Option.some.injEq] at f1
    subst f1
    by_cases hs : ty.small = true
    · rw [if_pos hs] at h6
      simp only [Option.some.injEq, Prod.mk.injEq] at h6
      obtain ⟨h7, h8⟩ := h6
      subst h7 h8
      refine ⟨_, ?_, r.push f3 f5 f6⟩
      simp [State.step, f4, f6, hs, f2]
    · rw [if_neg hs] at h6; cases h6
  | move x =>
    simp only [SState.step, Option.bind_eq_bind, Option.bind_eq_some_iff, Option.pure_def] at h
    obtain ⟨a, h1, ⟨ty, oc⟩, h2, c, h3, b, h4, k, h5, h6⟩ := h
    simp only at h3
    subst h2 h3 h5
    obtain ⟨k2, cells, f1, f2, f3, f4, f5, f6⟩ := r.owned h1
    rw [h4] at f1
    simp only [Option.some.injEq] at f1
    subst f1
    by_cases hs : ty.small = true
    · rw [if_pos hs] at h6
      simp only [Option.some.injEq, Prod.mk.injEq] at h6
      obtain ⟨h7, h8⟩ := h6
      subst h7 h8
      refine ⟨_, ?_, r.push f3 f5 f6⟩
      simp [State.step, f4, f6, hs, f2]
    · rw [if_neg hs] at h6
      simp only [Option.some.injEq, Prod.mk.injEq] at h6
      obtain ⟨h7, h8⟩ := h6
      subst h7 h8
      have hs' : ty.small = false := by simpa using hs
      have hi' : inArray ty = false := by rw [f6, hs']
      have r1 : Rel { m with objs := m.objs.set x (some ⟨ty, leftDims ty k.dims, none⟩) }
          { s with objs := s.objs.set x (some ⟨ty, none⟩) } :=
        r.setObj ⟨rfl, rfl, hi', hs'⟩ (fun y t u c e _ => by simp at e)
      have r2 := r1.pushObj (a := some ⟨ty, some c⟩) (b := some ⟨ty, k.dims, some c⟩) ⟨k, h4, rfl, f5, f6⟩ ?_
      · refine ⟨_, ?_, r2⟩
        simp [State.step, f4, hi']
      · intro y t u c' e g
        simp only [Option.some.injEq, SObj.mk.injEq] at e
        obtain ⟨_, e⟩ := e
        subst e
        rcases get_set g with ⟨_, _, g⟩ | ⟨g1, g2⟩
        · simp at g
        · exact g1 (r.inj _ _ _ _ _ g2 h1)
  | assign x y =>
    simp only [SState.step, Option.bind_eq_bind, Option.bind_eq_some_iff, Option.pure_def] at h
    obtain ⟨a, h1, ⟨tp, pc⟩, h2, a', g1, ⟨ty, oc⟩, g2, c, h3, b, h4, k, h5, h6⟩ := h
    simp only at h3
    subst h2 g2 h3 h5
    obtain ⟨k2, cells, f1, f2, f3, f4, f5, f6⟩ := r.owned g1
    rw [h4] at f1
    simp only [Option.some.injEq] at f1
    subst f1
    by_cases hc : tp = ty ∧ x ≠ y
    · rw [if_pos hc] at h6
      obtain ⟨hc1, hxy⟩ := hc
      subst hc1
      -- the objects after the move
      have objs : tp.small = false → inArray tp = false →
          Rel ⟨(m.objs.set y (some ⟨tp, leftDims tp k.dims, none⟩)).set x (some ⟨tp, k.dims, some c⟩), m.blocks, m.views⟩
            ⟨(s.objs.set y (some ⟨tp, none⟩)).set x (some ⟨tp, some c⟩), s.mem, s.views⟩ := by
        intro hs hi
        have r1 : Rel { m with objs := m.objs.set y (some ⟨tp, leftDims tp k.dims, none⟩) }
            { s with objs := s.objs.set y (some ⟨tp, none⟩) } :=
          r.setObj ⟨rfl, rfl, hi, hs⟩ (fun y t u c e _ => by simp at e)
        refine r1.setObj (a := some ⟨tp, some c⟩) (b := some ⟨tp, k.dims, some c⟩) ⟨k, h4, rfl, f5, f6⟩ ?_
        intro z t u c' e g
        simp only [Option.some.injEq, SObj.mk.injEq] at e
        obtain ⟨_, e⟩ := e
        subst e
        rcases get_set g with ⟨_, _, g⟩ | ⟨g3, g4⟩
        · simp at g
        · exact absurd (r.inj _ _ _ _ _ g4 g1) g3
      cases pc with
      | none =>
        simp only [Option.some.injEq, Prod.mk.injEq] at h6
        obtain ⟨h7, h8⟩ := h6
        subst h7 h8
        obtain ⟨dims, e1, e2, e3⟩ := r.moved h1
        refine ⟨_, ?_, objs e3 e2⟩
        simp [State.step, f4, e1, e2, hxy]
      | some b =>
        obtain ⟨k3, cells3, e1, e2, e3, e4, e5, e6⟩ := r.owned h1
        by_cases hs : tp.small = true
        · simp only [hs, if_true, Option.some.injEq, Prod.mk.injEq] at h6
          obtain ⟨h7, h8⟩ := h6
          subst h7 h8
          refine ⟨_, ?_, r.setMem e1 (admits_dims hs f5 e5) f3⟩
          simp [State.step, f4, e4, f6, hs, hxy, f2]
        · have hs' : tp.small = false := by simpa using hs
          have hi' : inArray tp = false := by rw [f6, hs']
          simp only [hs', Bool.false_eq_true, if_false, Option.some.injEq, Prod.mk.injEq] at h6
          obtain ⟨h7, h8⟩ := h6
          subst h7 h8
          refine ⟨_, ?_, (objs hs' hi').freeMem (c := b) ?_⟩
          · simp [State.step, f4, e4, hi', hxy]
          · intro z t hz
            have hbc : b ≠ c := fun e => by subst e; exact hxy (r.inj _ _ _ _ _ h1 g1)
            rcases get_set hz with ⟨_, _, g⟩ | ⟨g3, g4⟩
            · simp only [Option.some.injEq, SObj.mk.injEq] at g
              exact hbc g.2.symm
            · rcases get_set g4 with ⟨_, _, g⟩ | ⟨_, g5⟩
              · simp at g
              · exact g3 (r.inj _ _ _ _ _ g5 h1)
    · rw [if_neg hc] at h6; cases h6
  | swap x y =>
    simp only [SState.step, Option.bind_eq_bind, Option.bind_eq_some_iff, Option.pure_def] at h
    obtain ⟨a, h1, ⟨tp, pc⟩, h2, a', g1, ⟨ty, oc⟩, g2, h6⟩ := h
    subst h2 g2
    by_cases hc : tp = ty
    · rw [if_pos hc] at h6
      subst hc
      by_cases hs : tp.small = true
      · rw [if_pos hs] at h6
        simp only [Option.bind_eq_some_iff, Option.some.injEq, Prod.mk.injEq] at h6
        obtain ⟨b, e1, c, e2, al, e3, l, e4, ak, e5, k, e6, h7, h8⟩ := h6
        subst e1 e2 e4 e6 h7 h8
        obtain ⟨k1, cells1, p1, p2, p3, p4, p5, p6⟩ := r.owned h1
        obtain ⟨k2, cells2, q1, q2, q3, q4, q5, q6⟩ := r.owned g1
        rw [e3] at p1
        rw [e5] at q1
        simp only [Option.some.injEq] at p1 q1
        subst p1 q1
        have hd := admits_dims hs p5 q5
        have r1 := r.setMem (k' := k) e3 hd.symm q3
        have h5' : (s.mem.set b (some k))[c]? = some (some k) := by
          by_cases e : b = c
          · subst e; exact List.getElem?_set_self (lt_of_get e3)
          · rw [List.getElem?_set_ne e]; exact e5
        refine ⟨_, ?_, r1.setMem (k' := l) h5' hd p3⟩
        simp [State.step, p4, q4, p6, hs, p2, q2]
      · have hs' : tp.small = false := by simpa using hs
        rw [if_neg hs] at h6
        simp only [Option.some.injEq, Prod.mk.injEq] at h6
        obtain ⟨h7, h8⟩ := h6
        subst h7 h8
        obtain ⟨mp, p1, p2⟩ := r.obj x _ h1
        obtain ⟨mo, q1, q2⟩ := r.obj y _ g1
        have ex : ∃ P, mp = some P ∧ P.ty = tp ∧ inArray tp = false := by
          cases pc with
          | none =>
            cases mp with
            | none => exact p2.elim
            | some P => exact ⟨P, rfl, p2.1, p2.2.2.1⟩
          | some b =>
            cases mp with
            | none => exact p2.elim
            | some P =>
              obtain ⟨k, t1, t2, t3, t4⟩ := p2
              exact ⟨P, rfl, by rw [t2], by rw [t4, hs']⟩
        have ey : ∃ Q, mo = some Q ∧ Q.ty = tp := by
          cases oc with
          | none =>
            cases mo with
            | none => exact q2.elim
            | some P => exact ⟨P, rfl, q2.1⟩
          | some b =>
            cases mo with
            | none => exact q2.elim
            | some P =>
              obtain ⟨k, t1, t2, t3, t4⟩ := q2
              exact ⟨P, rfl, by rw [t2]⟩
        obtain ⟨P, rfl, hP, hi⟩ := ex
        obtain ⟨Q, rfl, hQ⟩ := ey
        obtain ⟨qt, pd, pdata⟩ := P
        obtain ⟨qt, qd, qdata⟩ := Q
        simp only at hP hQ
        subst hP hQ
        have st : m.step (.swap x y) = some
            (⟨(m.objs.set x (some ⟨qt, qd, qdata⟩)).set y (some ⟨qt, pd, pdata⟩), m.blocks, m.views⟩, none) := by
          simp [State.step, p1, q1, hi]
        refine ⟨_, st, r.setObjs (by simp [r.lo]) ?_ ?_⟩
        · intro z a' hz
          rcases get_set hz with ⟨u1, u2, u3⟩ | ⟨u1, u2⟩
          · subst u1 u3
            exact ⟨_, List.getElem?_set_self (by simpa [r.lo] using u2), p2⟩
          · rcases get_set u2 with ⟨v1, v2, v3⟩ | ⟨v1, v2⟩
            · subst v1 v3
              refine ⟨_, ?_, q2⟩
              rw [List.getElem?_set_ne (Ne.symm u1), List.getElem?_set_self (by simpa [r.lo] using v2)]
            · obtain ⟨w1, w2, w3⟩ := r.obj z a' v2
              exact ⟨w1, by rw [List.getElem?_set_ne (Ne.symm u1), List.getElem?_set_ne (Ne.symm v1)]; exact w2, w3⟩
        · -- each position holds what the exchanged position held
          have back : ∀ (z : Nat) (t : Ty) (c : Nat), ((s.objs.set x (some ⟨qt, oc⟩)).set y (some ⟨qt, pc⟩))[z]? = some (some ⟨t, some c⟩) →
              s.objs[if z = y then x else if z = x then y else z]? = some (some ⟨t, some c⟩) := by
            intro z t c hz
            rcases get_set hz with ⟨u1, u2, u3⟩ | ⟨u1, u2⟩
            · rw [if_pos u1, h1, u3]
            · rw [if_neg u1]
              rcases get_set u2 with ⟨v1, v2, v3⟩ | ⟨v1, v2⟩
              · rw [if_pos v1, g1, v3]
              · rw [if_neg v1]; exact v2
          intro z w t u c hz hw
          have := r.inj _ _ _ _ _ (back z t c hz) (back w u c hw)
          split_ifs at this <;> omega
    · rw [if_neg hc] at h6; cases h6
  | destroy x =>
    simp only [SState.step, Option.bind_eq_bind, Option.bind_eq_some_iff, Option.pure_def] at h
    obtain ⟨a, h1, ⟨ty, oc⟩, h2, h6⟩ := h
    subst h2
    cases oc with
    | none =>
      simp only [Option.some.injEq, Prod.mk.injEq] at h6
      obtain ⟨h7, h8⟩ := h6
      subst h7 h8
      obtain ⟨dims, e1, e2, e3⟩ := r.moved h1
      refine ⟨_, ?_, r.setObj (a := none) (b := none) trivial (fun y t u c e _ => by simp at e)⟩
      simp [State.step, e1]
    | some c =>
      simp only [Option.some.injEq, Prod.mk.injEq] at h6
      obtain ⟨h7, h8⟩ := h6
      subst h7 h8
      obtain ⟨k, cells, f1, f2, f3, f4, f5, f6⟩ := r.owned h1
      have r1 := r.setObj (x := x) (a := none) (b := none) trivial (fun y t u c e _ => by simp at e)
      refine ⟨_, ?_, r1.freeMem (c := c) ?_⟩
      · simp [State.step, f4]
      · intro z t hz
        rcases get_set hz with ⟨_, _, g⟩ | ⟨g3, g4⟩
        · simp at g
        · exact g3 (r.inj _ _ _ _ _ g4 h1)
  | view h' is =>
    simp only [SState.step, Option.bind_eq_bind, Option.bind_eq_some_iff, Option.pure_def] at h
    obtain ⟨⟨sv, k⟩, h1, h2⟩ := h
    obtain ⟨w, cells, f1, f2, f3, f4, f5, f6, f7, f8⟩ := r.find h1
    simp only at h2
    by_cases he : is = []
    · rw [if_pos he] at h2
      simp only [Option.some.injEq, Prod.mk.injEq] at h2
      obtain ⟨h7, h8⟩ := h2
      subst h7 h8
      refine ⟨_, ?_, r.pushView (sv := ⟨sv.contents, sv.lead, false⟩) (w := ⟨w.data, w.at_, false⟩) f2 rfl f5 f4⟩
      simp [State.step, f1, he]
    · rw [if_neg he] at h2
      by_cases hc : sv.fixed ∧ sv.lead.length + is.length < k.dims.length ∧
          fits ((k.dims.drop sv.lead.length).take is.length) is
      · rw [if_pos hc] at h2
        simp only [Option.some.injEq, Prod.mk.injEq] at h2
        obtain ⟨h7, h8⟩ := h2
        subst h7 h8
        obtain ⟨g1, u, g2, g3⟩ := view_step f4 f8.2.2.1 f8.2.1 hc.2.1 ((fits_iff _ _).mp hc.2.2)
        refine ⟨_, ?_, r.pushView (sv := ⟨sv.contents, sv.lead ++ is, true⟩) (w := ⟨w.data, u, true⟩) f2 rfl f5 (g3 _ _)⟩
        simp [State.step, f1, he, f3, hc.1, g1, g2]
      · rw [if_neg hc] at h2; cases h2
  | swapViews v w =>
    simp only [SState.step, Option.bind_eq_bind, Option.bind_eq_some_iff, Option.pure_def, Option.some.injEq,
      Prod.mk.injEq] at h
    obtain ⟨a, h1, b, h2, h7, h8⟩ := h
    subst h7 h8
    obtain ⟨wa, f1, f2⟩ := r.view v a h1
    obtain ⟨wb, g1, g2⟩ := r.view w b h2
    have st : m.step (.swapViews v w) = some ({ m with views := (m.views.set v wb).set w wa }, none) := by
      simp [State.step, f1, g1]
    refine ⟨_, st, r.lo, r.lb, by simp [r.lv], r.mem, r.obj, r.inj, ?_⟩
    intro z sv hz
    rcases get_set hz with ⟨u1, u2, u3⟩ | ⟨u1, u2⟩
    · subst u1 u3
      exact ⟨_, List.getElem?_set_self (by simpa [r.lv] using u2), f2⟩
    · rcases get_set u2 with ⟨v1, v2, v3⟩ | ⟨v1, v2⟩
      · subst v1 v3
        refine ⟨_, ?_, g2⟩
        rw [List.getElem?_set_ne (Ne.symm u1), List.getElem?_set_self (by simpa [r.lv] using v2)]
      · obtain ⟨w', w2, w3⟩ := r.view z sv v2
        exact ⟨w', by rw [List.getElem?_set_ne (Ne.symm u1), List.getElem?_set_ne (Ne.symm v1)]; exact w2, w3⟩
  | write h' is a =>
    simp only [SState.step, Option.bind_eq_bind, Option.bind_eq_some_iff, Option.pure_def] at h
    obtain ⟨⟨sv, k⟩, h1, h2⟩ := h
    obtain ⟨w, cells, f1, f2, f3, f4, f5, f6, f7, f8⟩ := r.find h1
    simp only at h2
    by_cases hf : fits (k.dims.drop sv.lead.length) is = true
    · rw [if_pos hf] at h2
      simp only [Option.some.injEq, Prod.mk.injEq] at h2
      obtain ⟨h7, h8⟩ := h2
      subst h7 h8
      have hr := (fits_iff _ _).mp hf
      have hb := off_bound f4.1
      have hfull := (inRange_lead f4.1).mpr hr
      have hw := holds_write f8 hfull a
      rw [flat_lead f4.1] at hw
      refine ⟨_, ?_, r.setMem (k' := ⟨k.dims, _⟩) f5 rfl hw⟩
      have hlt := flat_lt _ _ hr
      have hv : volume (k.dims.drop sv.lead.length) < 2 ^ 64 := by have := f8.2.1; omega
      simp only [State.step, f1, Option.bind_eq_bind, Option.bind_some, f4.2, checked_flat hv hr, f7]
      rw [if_pos (by rw [f8.1]; omega)]
      rfl
    · rw [if_neg hf] at h2; cases h2
  | read h' is =>
    simp only [SState.step, Option.bind_eq_bind, Option.bind_eq_some_iff] at h
    obtain ⟨⟨sv, k⟩, h1, h2⟩ := h
    obtain ⟨w, cells, f1, f2, f3, f4, f5, f6, f7, f8⟩ := r.find h1
    simp only at h2
    by_cases hf : fits (k.dims.drop sv.lead.length) is = true
    · rw [if_pos hf] at h2
      simp only [Option.map_eq_some_iff, Prod.mk.injEq] at h2
      obtain ⟨a, h3, h7, h8⟩ := h2
      subst h7 h8
      have hr := (fits_iff _ _).mp hf
      have hb := off_bound f4.1
      have hfull := (inRange_lead f4.1).mpr hr
      have hc := f8.2.2.2 _ hfull
      rw [flat_lead f4.1, h3] at hc
      have hv : volume (k.dims.drop sv.lead.length) < 2 ^ 64 := by have := f8.2.1; omega
      refine ⟨m, ?_, r⟩
      simp only [State.step, f1, Option.bind_eq_bind, Option.bind_some, f4.2, checked_flat hv hr, f7, hc]
      rfl
    · rw [if_neg hf] at h2; cases h2
  | dims h' =>
    simp only [SState.step, Option.bind_eq_bind, Option.bind_eq_some_iff, Option.pure_def, Option.some.injEq,
      Prod.mk.injEq] at h
    obtain ⟨⟨sv, k⟩, h1, h7, h8⟩ := h
    subst h7 h8
    obtain ⟨w, cells, f1, f2, f3, f4, f5, f6, f7, f8⟩ := r.find h1
    have hb := off_bound f4.1
    have hv : volume (k.dims.drop sv.lead.length) < 2 ^ 64 := by have := f8.2.1; omega
    have hp : computeProduct (k.dims.drop sv.lead.length) = volume (k.dims.drop sv.lead.length) := by
      rw [computeProduct_eq, Nat.mod_eq_of_lt hv]
    refine ⟨m, ?_, r⟩
    simp only [State.step, f1, Option.bind_eq_bind, Option.bind_some, f4.2, hp]
    rfl
  | elements h' =>
    simp only [SState.step, Option.bind_eq_bind, Option.bind_eq_some_iff, Option.pure_def, Option.some.injEq,
      Prod.mk.injEq] at h
    obtain ⟨⟨sv, k⟩, h1, as, h2, h7, h8⟩ := h
    subst h7 h8
    obtain ⟨w, cells, f1, f2, f3, f4, f5, f6, f7, f8⟩ := r.find h1
    have hb := off_bound f4.1
    have hv : volume (k.dims.drop sv.lead.length) < 2 ^ 64 := by have := f8.2.1; omega
    have hp : computeProduct (k.dims.drop sv.lead.length) = volume (k.dims.drop sv.lead.length) := by
      rw [computeProduct_eq, Nat.mod_eq_of_lt hv]
    refine ⟨m, ?_, r⟩
    simp only [State.step, f1, Option.bind_eq_bind, Option.bind_some, f4.2, hp, f7]
    rw [if_pos (by rw [f8.1]; omega), holds_elements f8 f4.1]
    simp only at h2
    rw [h2]
    rfl

theorem Rel.empty : Rel (State.empty : State α) SState.empty :=
  ⟨rfl, rfl, rfl, fun _ _ h => by simp [SState.empty] at h, fun _ _ h => by simp [SState.empty] at h,
    fun _ _ _ _ _ h => by simp [SState.empty] at h, fun _ _ h => by simp [SState.empty] at h⟩

theorem Rel.run {m : State α} {s : SState α} (r : Rel m s) {p : List (Stmt α)} {out : List (Obs α)}
    (h : s.run p = some out) : m.run p = some out := by
  induction p generalizing m s out with
  | nil => simpa [SState.run, State.run] using h
  | cons c cs ih =>
    simp only [SState.run, Option.bind_eq_bind, Option.bind_eq_some_iff, Option.pure_def, Option.some.injEq] at h
    obtain ⟨⟨s', o⟩, h1, os, h2, h3⟩ := h
    obtain ⟨m', g1, g2⟩ := r.step h1
    simp only at h2 h3
    simp only [State.run, g1, Option.bind_eq_bind, Option.bind_some, ih g2 h2, h3]
    rfl

/-- **C122** Every program that the specification allows is defined and shows what the specification says. -/
theorem tensor_programs (p : List (Stmt α)) (out : List (Obs α)) (h : SState.empty.run p = some out) :
    State.empty.run p = some out := Rel.empty.run h

/-- A program with a small tensor (`0`, `1`) and a big one (`2`, `3`), views of both (`0`, `1`: rows of `0` and of `2`) and swaps: the view of the
small tensor stays with the tensor, the one of the big tensor goes with the elements. -/
def sample : List (Stmt Nat) :=
  [.make (.fixed [2, 3]) [2, 3] (.range [1, 2, 3, 4, 5, 6]), .make (.fixed [2, 3]) [2, 3] (.value 7),
    .make (.fixed [3, 6]) [3, 6] (.value 8), .make (.fixed [3, 6]) [3, 6] (.value 9),
    .view (.obj 0) [1], .view (.obj 2) [2], .write (.view 0) [2] 60, .write (.view 1) [0] 80,
    .read (.obj 0) [1, 2], .elements (.view 0), .swap 0 1, .elements (.view 0), .elements (.obj 1), .swap 2 3,
    .elements (.view 1), .read (.obj 3) [2, 0], .move 3, .read (.obj 4) [2, 0], .destroy 3, .dims (.view 1), .elements (.view 1)]

example : SState.empty.run sample = some [.value 60, .elements [4, 5, 60], .elements [7, 7, 7],
    .elements [1, 2, 3, 4, 5, 60], .elements [80, 8, 8, 8, 8, 8], .value 80, .value 80, .dims [6] 6 false,
    .elements [80, 8, 8, 8, 8, 8]] := by decide +kernel

/-- Runtime dimensions: assignment, a view of the whole, a swap of views. -/
example : SState.empty.run ([.make (.rank 2) [2, 2] (.range [1, 2, 3, 4]), .make (.rank 2) [1, 3] (.value 5),
    .view (.obj 0) [], .view (.obj 1) [], .swapViews 0 1, .elements (.view 0), .elements (.view 1), .swap 0 1, .dims (.obj 0),
    .write (.view 1) [1, 0] 30, .elements (.obj 1), .assign 0 1, .elements (.obj 0), .make .dynamic [2, 1, 2] (.value 6),
    .write (.obj 2) [1, 0, 1] 66, .move 2, .elements (.obj 3), .destroy 2] : List (Stmt Nat)) =
    some [.elements [5, 5, 5], .elements [1, 2, 3, 4], .dims [1, 3] 3 false, .elements [1, 2, 30, 4],
      .elements [1, 2, 30, 4], .elements [6, 6, 6, 66]] := by decide +kernel

/-- **C122** (negation) A list with too few dimensions is read beyond its end; of a list with too many the rest is ignored. -/
theorem dims_list_fails (n : Nat) (hn : 0 < n) (dims : List Nat) :
    (dims.length < n → ∀ i : Init α, State.empty.run [.make (.rank n) dims i] = none) ∧
    (n < dims.length → volume (dims.take n) < 2 ^ 64 → State.empty.run [.make (.rank n) dims (.nothing : Init α), .dims (.obj 0)] =
      some [.dims (dims.take n) (volume (dims.take n)) (decide (volume (dims.take n) = 0))]) := by
  constructor
  · intro h i
    have : makeDims (.rank n) dims = none := by rw [makeDims, if_neg (by omega)]
    simp [State.run, State.step, this]
  · intro h hv
    have : makeDims (.rank n) dims = some (dims.take n) := by rw [makeDims, if_pos (by omega)]
    have hp : computeProduct (dims.take n) = volume (dims.take n) := by rw [computeProduct_eq, Nat.mod_eq_of_lt hv]
    simp [State.run, State.step, State.find, State.empty, this, makeCells, hp]

example : (0 < 3) ∧ [2, 2].length < 3 ∧ 3 < [2, 2, 2, 2].length ∧ volume ([2, 2, 2, 2].take 3) < 2 ^ 64 := by decide

/-- **C122** (negation) If the product of the dimensions does not fit in `size_t`, construction succeeds, and there is an element
with all indices in range that is outside the storage. -/
theorem overflow_ub (dims : List Nat) (hn : dims ≠ []) (h : 2 ^ 64 ≤ volume dims) (a : α) :
    State.empty.run [.make (.rank dims.length) dims (.value a)] = some [] ∧
    ∃ is, InRange dims is ∧ State.empty.run [.make (.rank dims.length) dims (.value a), .read (.obj 0) is] = none := by
  have hl : 0 < dims.length := List.length_pos_iff.mpr hn
  have hm : makeDims (.rank dims.length) dims = some dims := by rw [makeDims, if_pos (by omega), List.take_length]
  obtain ⟨is, h1, h2⟩ := flat_surj dims (volume dims % 2 ^ 64) (by omega)
  have hc : checkedIndex dims 0 0 is = some (volume dims % 2 ^ 64) := by
    have := checkedIndex_eq dims [] is 0
    simp only [List.nil_append, List.length_nil] at this
    rw [this, if_pos h1]
    have g := getIndex_eq [] dims is (inRange_length dims is h1) 0 0 rfl (fun _ => rfl)
    simp only [List.nil_append, List.length_nil, Nat.zero_mul, Nat.zero_add] at g
    rw [g, h2, Nat.mod_mod]
  refine ⟨by simp [State.run, State.step, State.empty, hm, makeCells], is, h1, ?_⟩
  simp only [State.run, State.step, State.find, State.block, State.empty, hm, makeCells, computeProduct_eq, Option.bind_eq_bind,
    Option.bind_some, Option.pure_def, List.nil_append, List.length_nil, List.getElem?_cons_zero, hc, Nat.zero_add]
  rw [List.getElem?_eq_none (by simp)]
  rfl

example : [2 ^ 32, 2 ^ 32 + 1] ≠ [] ∧ 2 ^ 64 ≤ volume [2 ^ 32, 2 ^ 32 + 1] := by decide +kernel

/-- **C122** (negation) A tensor that was moved from does not become empty: with dynamic rank it reports one element, with static rank as
many as before, and there is no storage behind them. -/
theorem moved_size_fails (dims : List Nat) (hv : volume dims < 2 ^ 64) (i : Init α)
    (hi : ∀ n, makeCells n i ≠ none) :
    State.empty.run [.make .dynamic dims i, .move 0, .dims (.obj 0)] = some [.dims [] 1 false] ∧
    State.empty.run [.make .dynamic dims i, .move 0, .elements (.obj 0)] = none ∧
    (dims ≠ [] → State.empty.run [.make (.rank dims.length) dims i, .move 0, .dims (.obj 0)] =
        some [.dims dims (volume dims) (decide (volume dims = 0))] ∧
      State.empty.run [.make (.rank dims.length) dims i, .move 0, .elements (.obj 0)] = none) := by
  obtain ⟨cells, hc⟩ := Option.ne_none_iff_exists'.mp (hi (computeProduct dims))
  have hp : computeProduct dims = volume dims := by rw [computeProduct_eq, Nat.mod_eq_of_lt hv]
  have h1 : computeProduct [] = 1 := rfl
  refine ⟨?_, ?_, fun hn => ?_⟩
  · simp [State.run, State.step, State.find, State.empty, makeDims, hc, inArray, leftDims, h1]
  · simp [State.run, State.step, State.find, State.block, State.empty, makeDims, hc, inArray, leftDims]
  · have hl : 0 < dims.length := List.length_pos_iff.mpr hn
    have hm : makeDims (.rank dims.length) dims = some dims := by rw [makeDims, if_pos (by omega), List.take_length]
    constructor
    · rw [hp] at hc
      simp [State.run, State.step, State.find, State.empty, hm, hc, inArray, leftDims, hp]
    · simp [State.run, State.step, State.find, State.block, State.empty, hm, hc, inArray]

example : volume [2, 3] < 2 ^ 64 ∧ (∀ n, makeCells n (.value 5) ≠ none) ∧ [2, 3] ≠ [] :=
  ⟨by decide, fun n => by simp [makeCells], by decide⟩

end Actl.TensorObj
