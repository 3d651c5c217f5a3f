import Verif.Spec.Convert

/-!
# C81: conversions between sequences

* `convert_has`: the result of a conversion has the target type.
* `convert_leaves_partial`: it has the numbers of the arguments in order, unless the target has
  vectors in vectors or the source empty tuples.
* `convert_vec_vec_fails`, `convert_empty_tuple`, `nested_tuple_not_convertible`, `can_vec_vec`: where
  the code is wrong.
* `can_fuel`, `conv_fuel`: the bound on the recursion is no restriction.
-/

namespace Actl.Convert

/-! ### Auxiliary facts -/

mutual

theorem same_eq : ∀ (t s : Ty), same t s = true → t = s
  | .num, .num, _ => rfl
  | .const a, .const b, h => by simpa [same] using h
  | .tuple a, .tuple b, h => by rw [sameAll_eq a b (by simpa [same] using h)]
  | .arr t n, .arr s m, h => by
    simp only [same, Bool.and_eq_true, beq_iff_eq] at h
    rw [same_eq t s h.1, h.2]
  | .vec t, .vec s, h => by rw [same_eq t s (by simpa [same] using h)]
  | .num, .const _, h | .num, .tuple _, h | .num, .arr _ _, h | .num, .vec _, h
  | .const _, .num, h | .const _, .tuple _, h | .const _, .arr _ _, h | .const _, .vec _, h
  | .tuple _, .num, h | .tuple _, .const _, h | .tuple _, .arr _ _, h | .tuple _, .vec _, h
  | .arr _ _, .num, h | .arr _ _, .const _, h | .arr _ _, .tuple _, h | .arr _ _, .vec _, h
  | .vec _, .num, h | .vec _, .const _, h | .vec _, .tuple _, h | .vec _, .arr _ _, h => by
    simp [same] at h

theorem sameAll_eq : ∀ (a b : List Ty), sameAll a b = true → a = b
  | [], [], _ => rfl
  | t :: ts, s :: ss, h => by
    simp only [sameAll, Bool.and_eq_true] at h
    rw [same_eq t s h.1, sameAll_eq ts ss h.2]
  | [], _ :: _, h | _ :: _, [], h => by simp [sameAll] at h

end

/-- `mapAll` relates the lists element by element. -/
theorem mapAll_forall {α β : Type} (f : α → Option β) : ∀ (l : List α) (r : List β),
    mapAll f l = some r → List.Forall₂ (fun x y => f x = some y) l r
  | [], r, h => by
    simp only [mapAll, Option.some.injEq] at h
    subst h
    exact .nil
  | x :: xs, r, h => by
    simp only [mapAll, Option.bind_eq_some_iff, Option.map_eq_some_iff] at h
    obtain ⟨y, hy, ys, hys, rfl⟩ := h
    exact .cons hy (mapAll_forall f xs ys hys)

theorem hasAll_replicate (t : Ty) : ∀ (n : Nat) (l : List Val),
    HasAll (List.replicate n t) l ↔ l.length = n ∧ ∀ v ∈ l, Has t v
  | 0, [] => by simp [HasAll]
  | 0, v :: l => by simp [HasAll]
  | n + 1, [] => by simp [HasAll, List.replicate_succ]
  | n + 1, v :: l => by
    simp [HasAll, List.replicate_succ, hasAll_replicate t n l]
    tauto

theorem hasAll_length : ∀ (ts : List Ty) (l : List Val), HasAll ts l → ts.length = l.length
  | [], [], _ => rfl
  | _ :: ts, _ :: l, h => by simp [hasAll_length ts l h.2]
  | [], _ :: _, h | _ :: _, [], h => by simp [HasAll] at h

/-- Values with the types of a tuple. -/
theorem hasAll_zip : ∀ (ts : List Ty) (l : List Val), HasAll ts l →
    ∀ p ∈ ts.zip l, Has p.1 p.2
  | [], [], _, p, hp => by simp at hp
  | t :: ts, v :: l, h, p, hp => by
    rw [List.zip_cons_cons, List.mem_cons] at hp
    rcases hp with rfl | hp
    · exact h.1
    · exact hasAll_zip ts l h.2 p hp
  | [], _ :: _, h, _, _ | _ :: _, [], h, _, _ => by simp [HasAll] at h

/-- A range has elements of its type. -/
theorem has_range (s se : Ty) (l : List Val) (hs : strictRange s = some se) (h : Has s (.seq l)) :
    ∀ v ∈ l, Has se v := by
  cases s with
  | arr t n =>
    simp only [strictRange, Option.some.injEq] at hs
    subst hs
    exact h.2
  | vec t =>
    simp only [strictRange, Option.some.injEq] at hs
    subst hs
    exact h
  | num | const c | tuple l => simp [strictRange] at hs

theorem has_elements (t : Ty) (l : List Val) (ht : isTuple t = true) (h : HasAll (elements t) l) :
    Has t (.seq l) := by
  cases t with
  | tuple ts => exact h
  | arr t n => exact (hasAll_replicate t n l).mp h
  | num | const c | vec t => simp [isTuple] at ht

mutual

theorem dflt_has : ∀ t : Ty, Has t (dflt t)
  | .num => trivial
  | .const c => rfl
  | .tuple l => dfltAll_has l
  | .arr t n => by
    refine ⟨by simp, fun v hv => ?_⟩
    rw [(List.mem_replicate.mp hv).2]
    exact dflt_has t
  | .vec t => by intro v hv; simp at hv

theorem dfltAll_has : ∀ l : List Ty, HasAll l (dfltAll l)
  | [] => trivial
  | t :: ts => ⟨dflt_has t, dfltAll_has ts⟩

end

theorem replicate_has (t : Ty) (n : Nat) : Has (.vec t) (.seq (List.replicate n (dflt t))) := by
  intro v hv
  rw [(List.mem_replicate.mp hv).2]
  exact dflt_has t

mutual

theorem construct_has : ∀ (t s : Ty) (v w : Val), Has s v → construct t s v = some w → Has t w
  | .num, .num, v, w, hv, h => by
    simp only [construct, Option.some.injEq] at h
    subst h
    exact hv
  | .num, .const c, v, w, hv, h => by
    simp only [construct, Option.some.injEq] at h
    subst h
    cases v with
    | num n => trivial
    | seq l => simp [Has] at hv
  | .vec t, .num, .num n, w, hv, h => by
    simp only [construct] at h
    split_ifs at h
    simp only [Option.some.injEq] at h
    subst h
    exact replicate_has t _
  | .vec t, .const c, .num n, w, hv, h => by
    simp only [construct] at h
    split_ifs at h
    simp only [Option.some.injEq] at h
    subst h
    exact replicate_has t _
  | .tuple ts, .tuple ss, .seq l, w, hv, h => by
    simp only [construct, Option.map_eq_some_iff] at h
    obtain ⟨r, hr, rfl⟩ := h
    exact constructAll_has ts ss l r hv hr
  | .num, .tuple _, v, w, hv, h | .num, .arr _ _, v, w, hv, h | .num, .vec _, v, w, hv, h
  | .const _, .num, v, w, hv, h | .const _, .tuple _, v, w, hv, h | .const _, .arr _ _, v, w, hv, h
  | .const _, .vec _, v, w, hv, h
  | .const _, .const _, v, w, hv, h
  | .tuple _, .num, v, w, hv, h | .tuple _, .const _, v, w, hv, h | .tuple _, .arr _ _, v, w, hv, h
  | .tuple _, .vec _, v, w, hv, h
  | .tuple _, .tuple _, .num _, w, hv, h
  | .arr _ _, .num, v, w, hv, h | .arr _ _, .const _, v, w, hv, h | .arr _ _, .tuple _, v, w, hv, h
  | .arr _ _, .vec _, v, w, hv, h | .arr _ _, .arr _ _, v, w, hv, h
  | .vec _, .num, .seq _, w, hv, h | .vec _, .const _, .seq _, w, hv, h
  | .vec _, .tuple _, v, w, hv, h | .vec _, .arr _ _, v, w, hv, h | .vec _, .vec _, v, w, hv, h => by
    simp only [construct] at h
    split_ifs at h with hs
    obtain rfl := Option.some.inj h
    rw [same_eq _ _ hs]
    exact hv

theorem constructAll_has : ∀ (ts ss : List Ty) (l r : List Val), HasAll ss l →
    constructAll ts ss l = some r → HasAll ts r
  | [], [], [], r, _, h => by
    simp only [constructAll, Option.some.injEq] at h
    subst h
    trivial
  | t :: ts, s :: ss, v :: vs, r, hv, h => by
    simp only [constructAll, Option.bind_eq_some_iff, Option.map_eq_some_iff] at h
    obtain ⟨x, hx, xs, hxs, rfl⟩ := h
    exact ⟨construct_has t s v x hv.1 hx, constructAll_has ts ss vs xs hv.2 hxs⟩
  | [], _ :: _, _, r, _, h | [], [], _ :: _, r, _, h | _ :: _, [], _, r, _, h
  | _ :: _, _ :: _, [], r, _, h => by simp [constructAll] at h

end

/-- Elements converted one by one. -/
theorem forall_has {α : Type} (f : α → Option Val) (t : Ty) : ∀ (l : List α) (r : List Val),
    List.Forall₂ (fun x y => f x = some y) l r → (∀ x ∈ l, ∀ y, f x = some y → Has t y) →
    r.length = l.length ∧ ∀ v ∈ r, Has t v
  | [], [], _, _ => ⟨rfl, by simp⟩
  | x :: l, y :: r, .cons hxy h, hf => by
    obtain ⟨h1, h2⟩ := forall_has f t l r h (fun x hx => hf x (List.mem_cons_of_mem _ hx))
    refine ⟨by simp [h1], fun v hv => ?_⟩
    rcases List.mem_cons.mp hv with rfl | hv
    · exact hf x List.mem_cons_self _ hxy
    · exact h2 v hv

/-- Pairs of a type and an argument converted one by one. -/
theorem forall_hasAll {α : Type} (f : Ty × α → Option Val) : ∀ (ts : List Ty) (l : List α)
    (r : List Val), ts.length = l.length →
    List.Forall₂ (fun x y => f x = some y) (ts.zip l) r →
    (∀ p ∈ ts.zip l, ∀ y, f p = some y → Has p.1 y) → HasAll ts r
  | [], [], [], _, _, _ => trivial
  | t :: ts, a :: l, y :: r, hl, .cons hxy h, hf =>
    ⟨hf (t, a) (by simp) y hxy, forall_hasAll f ts l r (by simpa using hl) h
      (fun p hp => hf p (by rw [List.zip_cons_cons]; exact List.mem_cons_of_mem _ hp))⟩
  | [], _ :: _, _, hl, _, _ | _ :: _, [], _, hl, _, _ => by simp at hl

/-- The arguments have their types. -/
def Typed (args : List (Ty × Val)) : Prop := ∀ a ∈ args, Has a.1 a.2

theorem init_has (f : Ty → List (Ty × Val) → Option Val) (args : List (Ty × Val))
    (hf : ∀ t, ∀ a ∈ args, ∀ v, f t [a] = some v → Has t v) (t : Ty) (v : Val)
    (h : init f t args = some v) : Has t v := by
  cases t with
  | num | const c => simp [init] at h
  | vec te =>
    simp only [init, Option.map_eq_some_iff] at h
    obtain ⟨r, hr, rfl⟩ := h
    exact (forall_has _ te _ _ (mapAll_forall _ _ _ hr) (fun x hx y hy => hf te x hx y hy)).2
  | arr te n =>
    simp only [init] at h
    split_ifs at h with hn
    simp only [Option.map_eq_some_iff] at h
    obtain ⟨r, hr, rfl⟩ := h
    have := forall_has _ te _ _ (mapAll_forall _ _ _ hr) (fun x hx y hy => hf te x hx y hy)
    exact ⟨this.1.trans hn.symm, this.2⟩
  | tuple ts =>
    simp only [init] at h
    split_ifs at h with hn
    simp only [Option.map_eq_some_iff] at h
    obtain ⟨r, hr, rfl⟩ := h
    exact forall_hasAll (fun p => f p.1 [p.2]) ts args r hn.1 (mapAll_forall _ _ _ hr)
      (fun p hp y hy => hf p.1 p.2 (List.of_mem_zip hp).2 y hy)

theorem convAsRanges_has (t s : Ty) (v w : Val) (hv : Has s v)
    (h : convAsRanges t s v = some w) : Has t w := by
  unfold convAsRanges at h
  split at h
  · rename_i te se l hs
    simp only [Option.map_eq_some_iff] at h
    obtain ⟨r, hr, rfl⟩ := h
    exact (forall_has _ te _ _ (mapAll_forall _ _ _ hr) (fun x hx y hy =>
      construct_has te se x y (has_range s se l hs hv x hx) hy)).2
  · rename_i te n se l hs
    split_ifs at h with hn
    simp only [Option.map_eq_some_iff] at h
    obtain ⟨r, hr, rfl⟩ := h
    have := forall_has _ te _ _ (mapAll_forall _ _ _ hr) (fun x hx y hy =>
      construct_has te se x y (has_range s se l hs hv x hx) hy)
    exact ⟨this.1.trans hn.symm, this.2⟩
  · exact absurd h (by simp)

/-- One argument and a target that is not a number. -/
theorem conv_one (fuel : Nat) (t s : Ty) (v : Val) (ht : t ≠ .num) (hc : ∀ c, t ≠ .const c) :
    conv (fuel + 1) t [(s, v)] =
      if canAsRanges t s then convAsRanges t s v
      else if canRangeToTuple (can fuel) t s then
        match strictRange s, v with
        | some se, .seq l =>
          if (elements t).length = l.length then
            (mapAll (fun p => conv fuel p.1 [(se, p.2)]) ((elements t).zip l)).map .seq
          else none
        | _, _ => none
      else match s, v with
        | .tuple ss, .seq l => conv fuel t (ss.zip l)
        | .tuple _, .num _ => none
        | s, v => init (conv fuel) t [(s, v)] := by
  cases t with
  | num => exact absurd rfl ht
  | const c => exact absurd rfl (hc c)
  | tuple l => rw [conv.eq_def]; rfl
  | arr t n => rw [conv.eq_def]; rfl
  | vec t => rw [conv.eq_def]; rfl

/-- One argument and a target that is not a number. -/
theorem can_one (fuel : Nat) (t s : Ty) (ht : t ≠ .num) (hc : ∀ c, t ≠ .const c) :
    can (fuel + 1) t [s] =
      if canAsRanges t s then true
      else if canRangeToTuple (can fuel) t s then true
      else match s with
        | .tuple ss => can fuel t ss
        | s => canInit (can fuel) t [s] := by
  cases t with
  | num => exact absurd rfl ht
  | const c => exact absurd rfl (hc c)
  | tuple l => rw [can.eq_def]; rfl
  | arr t n => rw [can.eq_def]; rfl
  | vec t => rw [can.eq_def]; rfl

theorem conv_const (fuel : Nat) (c : Int) (s : Ty) (v : Val) :
    conv (fuel + 1) (.const c) [(s, v)] = match s, v with
      | .num, .num n => if n = c then some v else none
      | .const _, .num n => if n = c then some v else none
      | _, _ => none := by
  rw [conv.eq_def]; rfl

/-- The result has the target type. -/
theorem conv_has : ∀ (fuel : Nat) (t : Ty) (args : List (Ty × Val)) (v : Val), Typed args →
    conv fuel t args = some v → Has t v
  | 0, _, _, _, _, h => by simp [conv] at h
  | _ + 1, t, [], v, _, h => by
    simp only [conv, Option.some.injEq] at h
    subst h
    exact dflt_has t
  | fuel + 1, t, [(s, w)], v, ha, h => by
    have hw : Has s w := ha (s, w) List.mem_cons_self
    by_cases ht : t = .num
    · subst ht
      cases s <;> simp only [conv, Option.some.injEq, reduceCtorEq] at h
      · subst h; exact hw
      · subst h
        cases w with
        | num n => trivial
        | seq l => simp [Has] at hw
    by_cases hc : ∃ c, t = .const c
    · obtain ⟨c, rfl⟩ := hc
      rw [conv_const] at h
      split at h
      · split_ifs at h with hn
        obtain rfl := Option.some.inj h
        exact hn
      · split_ifs at h with hn
        obtain rfl := Option.some.inj h
        exact hn
      · exact absurd h (by simp)
    rw [conv_one fuel t s w ht (fun c e => hc ⟨c, e⟩)] at h
    split_ifs at h with h1 h2
    · exact convAsRanges_has t s w v hw h
    · split at h
      · rename_i se l hs
        split_ifs at h with hn
        simp only [Option.map_eq_some_iff] at h
        obtain ⟨r, hr, rfl⟩ := h
        have hT : isTuple t = true := by
          simp only [canRangeToTuple, Bool.and_eq_true] at h2
          exact h2.1
        refine has_elements t r hT (forall_hasAll (fun p => conv fuel p.1 [(se, p.2)]) _ _ r hn
          (mapAll_forall _ _ _ hr) (fun p hp y hy => ?_))
        refine conv_has fuel p.1 [(se, p.2)] y ?_ hy
        intro a ha'
        obtain rfl := List.mem_singleton.mp ha'
        exact has_range s se l hs hw p.2 (List.of_mem_zip hp).2
      · exact absurd h (by simp)
    · split at h
      · rename_i ss l
        exact conv_has fuel t _ v (fun a ha' => hasAll_zip ss l hw a ha') h
      · exact absurd h (by simp)
      · refine init_has (conv fuel) _ (fun t' a ha' v' hv' => ?_) t v h
        refine conv_has fuel t' [a] v' ?_ hv'
        intro b hb
        rw [List.mem_singleton.mp hb]
        exact ha a ha'
  | fuel + 1, t, a :: b :: rest, v, ha, h => by
    rw [conv] at h
    · refine init_has (conv fuel) _ (fun t' a' ha' v' hv' => ?_) t v h
      refine conv_has fuel t' [a'] v' ?_ hv'
      intro b' hb
      rw [List.mem_singleton.mp hb]
      exact ha a' ha'
    · simp
    · simp

/-- **C81.** The result of a conversion has the target type. -/
theorem convert_has (t : Ty) (args : List (Ty × Val)) (v : Val) (ha : ∀ a ∈ args, Has a.1 a.2)
    (h : convertTo t args = some v) : Has t v := by
  rw [convertTo] at h
  split_ifs at h
  exact conv_has _ t args v ha h

/-! ### The numbers -/

theorem leavesAll_eq (l : List Val) : leavesAll l = l.flatMap leaves := by
  induction l with
  | nil => rfl
  | cons v l ih => simp [leavesAll, ih]

mutual

theorem construct_leaves : ∀ (t s : Ty) (v w : Val), (NoVec t ∨ assignable t s = true) →
    construct t s v = some w → leaves w = leaves v
  | .num, .num, v, w, _, h => by rw [Option.some.inj h]
  | .num, .const c, v, w, _, h => by rw [Option.some.inj h]
  | .vec t, .num, .num n, w, hn, h => by
    rcases hn with hn | hn
    · exact absurd hn (by simp [NoVec])
    · simp [assignable, same] at hn
  | .vec t, .const c, .num n, w, hn, h => by
    rcases hn with hn | hn
    · exact absurd hn (by simp [NoVec])
    · simp [assignable, same] at hn
  | .tuple ts, .tuple ss, .seq l, w, hn, h => by
    simp only [construct, Option.map_eq_some_iff] at h
    obtain ⟨r, hr, rfl⟩ := h
    simp only [leaves]
    exact constructAll_leaves ts ss l r (by simpa [NoVec, assignable] using hn) hr
  | .num, .tuple _, v, w, _, h | .num, .arr _ _, v, w, _, h | .num, .vec _, v, w, _, h
  | .const _, .num, v, w, _, h | .const _, .tuple _, v, w, _, h | .const _, .arr _ _, v, w, _, h
  | .const _, .vec _, v, w, _, h
  | .const _, .const _, v, w, _, h
  | .tuple _, .num, v, w, _, h | .tuple _, .const _, v, w, _, h | .tuple _, .arr _ _, v, w, _, h
  | .tuple _, .vec _, v, w, _, h
  | .tuple _, .tuple _, .num _, w, _, h
  | .arr _ _, .num, v, w, _, h | .arr _ _, .const _, v, w, _, h | .arr _ _, .tuple _, v, w, _, h
  | .arr _ _, .vec _, v, w, _, h | .arr _ _, .arr _ _, v, w, _, h
  | .vec _, .num, .seq _, w, _, h | .vec _, .const _, .seq _, w, _, h
  | .vec _, .tuple _, v, w, _, h | .vec _, .arr _ _, v, w, _, h | .vec _, .vec _, v, w, _, h => by
    simp only [construct] at h
    split_ifs at h with hs
    rw [Option.some.inj h]

theorem constructAll_leaves : ∀ (ts ss : List Ty) (l r : List Val),
    (NoVecAll ts ∨ assignableAll ts ss = true) →
    constructAll ts ss l = some r → leavesAll r = leavesAll l
  | [], [], [], r, _, h => by rw [← Option.some.inj h]
  | t :: ts, s :: ss, v :: vs, r, hn, h => by
    simp only [constructAll, Option.bind_eq_some_iff, Option.map_eq_some_iff] at h
    obtain ⟨x, hx, xs, hxs, rfl⟩ := h
    have h1 : NoVec t ∨ assignable t s = true := by
      rcases hn with hn | hn
      · exact .inl hn.1
      · simp only [assignableAll, Bool.and_eq_true] at hn
        exact .inr hn.1
    have h2 : NoVecAll ts ∨ assignableAll ts ss = true := by
      rcases hn with hn | hn
      · exact .inl hn.2
      · simp only [assignableAll, Bool.and_eq_true] at hn
        exact .inr hn.2
    simp only [leavesAll]
    rw [construct_leaves t s v x h1 hx, constructAll_leaves ts ss vs xs h2 hxs]
  | [], _ :: _, _, r, _, h | [], [], _ :: _, r, _, h | _ :: _, [], _, r, _, h
  | _ :: _, _ :: _, [], r, _, h => by simp [constructAll] at h

end

/-- Elements converted one by one. -/
theorem forall_leaves {α : Type} (f : α → Option Val) (g : α → List Int) :
    ∀ (l : List α) (r : List Val), List.Forall₂ (fun x y => f x = some y) l r →
    (∀ x ∈ l, ∀ y, f x = some y → leaves y = g x) → leavesAll r = l.flatMap g
  | [], [], _, _ => rfl
  | x :: l, y :: r, .cons hxy h, hf => by
    rw [leavesAll, List.flatMap_cons, hf x List.mem_cons_self y hxy,
      forall_leaves f g l r h (fun x hx => hf x (List.mem_cons_of_mem _ hx))]

theorem flatMap_zip_snd {α β γ : Type} (g : β → List γ) : ∀ (a : List α) (b : List β),
    a.length = b.length → (a.zip b).flatMap (fun p => g p.2) = b.flatMap g
  | [], [], _ => rfl
  | x :: a, y :: b, h => by
    simp [flatMap_zip_snd g a b (by simpa using h)]
  | [], _ :: _, h | _ :: _, [], h => by simp at h

theorem flatAll_mem : ∀ (l : List Ty), FlatAll l → ∀ t ∈ l, Flat t
  | [], _, t, ht => by simp at ht
  | s :: l, h, t, ht => by
    rcases List.mem_cons.mp ht with rfl | ht
    · exact h.1
    · exact flatAll_mem l h.2 t ht

theorem filledAll_mem : ∀ (l : List Ty), FilledAll l → ∀ t ∈ l, Filled t
  | [], _, t, ht => by simp at ht
  | s :: l, h, t, ht => by
    rcases List.mem_cons.mp ht with rfl | ht
    · exact h.1
    · exact filledAll_mem l h.2 t ht

mutual

theorem noVec_flat : ∀ t : Ty, NoVec t → Flat t
  | .num, _ => trivial
  | .const _, _ => trivial
  | .tuple l, h => noVecAll_flat l h
  | .arr t _, h => noVec_flat t h
  | .vec _, h => absurd h (by simp [NoVec])

theorem noVecAll_flat : ∀ l : List Ty, NoVecAll l → FlatAll l
  | [], _ => trivial
  | t :: ts, h => ⟨noVec_flat t h.1, noVecAll_flat ts h.2⟩

end

theorem flat_elements (t : Ty) (h : Flat t) : ∀ te ∈ elements t, Flat te := by
  cases t with
  | tuple l => exact flatAll_mem l h
  | arr t n =>
    intro te ht
    rw [(List.mem_replicate.mp ht).2]
    exact h
  | num | const c | vec t => intro te ht; simp [elements] at ht

theorem init_leaves (f : Ty → List (Ty × Val) → Option Val) (args : List (Ty × Val))
    (hf : ∀ t, Flat t → ∀ a ∈ args, ∀ v, f t [a] = some v → leaves v = leaves a.2) (t : Ty)
    (ht : Flat t) (v : Val) (h : init f t args = some v) :
    leaves v = args.flatMap fun a => leaves a.2 := by
  cases t with
  | num | const c => simp [init] at h
  | vec te =>
    simp only [init, Option.map_eq_some_iff] at h
    obtain ⟨r, hr, rfl⟩ := h
    exact forall_leaves _ (fun a => leaves a.2) _ _ (mapAll_forall _ _ _ hr)
      (fun x hx y hy => hf te (noVec_flat te ht) x hx y hy)
  | arr te n =>
    simp only [init] at h
    split_ifs at h with hn
    simp only [Option.map_eq_some_iff] at h
    obtain ⟨r, hr, rfl⟩ := h
    exact forall_leaves _ (fun a => leaves a.2) _ _ (mapAll_forall _ _ _ hr)
      (fun x hx y hy => hf te ht x hx y hy)
  | tuple ts =>
    simp only [init] at h
    split_ifs at h with hn
    simp only [Option.map_eq_some_iff] at h
    obtain ⟨r, hr, rfl⟩ := h
    rw [leaves, forall_leaves _ (fun p => leaves p.2.2) _ _ (mapAll_forall _ _ _ hr)
      (fun x hx y hy => hf x.1 (flatAll_mem ts ht _ (List.of_mem_zip hx).1) x.2
        (List.of_mem_zip hx).2 y hy)]
    exact flatMap_zip_snd (fun a : Ty × Val => leaves a.2) ts args hn.1

theorem convAsRanges_leaves (t s : Ty) (v w : Val) (ht : Flat t) (hc : canAsRanges t s = true)
    (h : convAsRanges t s v = some w) : leaves w = leaves v := by
  unfold convAsRanges at h
  split at h
  · rename_i te se l hs
    simp only [Option.map_eq_some_iff] at h
    obtain ⟨r, hr, rfl⟩ := h
    rw [leaves, leaves, leavesAll_eq l]
    exact forall_leaves _ leaves _ _ (mapAll_forall _ _ _ hr) (fun x _ y hy =>
      construct_leaves te se x y (.inl ht) hy)
  · rename_i te n se l hs
    split_ifs at h with hn
    simp only [Option.map_eq_some_iff] at h
    obtain ⟨r, hr, rfl⟩ := h
    rw [leaves, leaves, leavesAll_eq l]
    have ha : assignable te se = true := by
      have e : strictRange (.arr te n) = some te := rfl
      unfold canAsRanges at hc
      rw [hs, e] at hc
      simp only [Bool.and_eq_true] at hc
      exact hc.2
    exact forall_leaves _ leaves _ _ (mapAll_forall _ _ _ hr) (fun x _ y hy =>
      construct_leaves te se x y (.inr ha) hy)
  · exact absurd h (by simp)

theorem filled_range (s se : Ty) (hs : strictRange s = some se) (h : Filled s) : Filled se := by
  cases s with
  | arr t n =>
    simp only [strictRange, Option.some.injEq] at hs
    subst hs
    exact h
  | vec t =>
    simp only [strictRange, Option.some.injEq] at hs
    subst hs
    exact h
  | num | const c | tuple l => simp [strictRange] at hs

/-- The numbers of the result. -/
theorem conv_leaves : ∀ (fuel : Nat) (t : Ty) (args : List (Ty × Val)) (v : Val), Typed args →
    Flat t → args ≠ [] → (∀ a ∈ args, Filled a.1) →
    conv fuel t args = some v → leaves v = args.flatMap fun a => leaves a.2
  | 0, _, _, _, _, _, _, _, h => by simp [conv] at h
  | _ + 1, t, [], v, _, _, hne, _, h => absurd rfl hne
  | fuel + 1, t, [(s, w)], v, ha, hf, hne, hfi, h => by
    have hw : Has s w := ha (s, w) List.mem_cons_self
    have hs : Filled s := hfi (s, w) List.mem_cons_self
    rw [show ([(s, w)] : List (Ty × Val)).flatMap (fun a => leaves a.2) = leaves w by simp]
    by_cases ht : t = .num
    · subst ht
      cases s <;> simp only [conv, Option.some.injEq, reduceCtorEq] at h <;> rw [h]
    by_cases hc : ∃ c, t = .const c
    · obtain ⟨c, rfl⟩ := hc
      rw [conv_const] at h
      split at h
      · split_ifs at h with hn
        rw [Option.some.inj h]
      · split_ifs at h with hn
        rw [Option.some.inj h]
      · exact absurd h (by simp)
    rw [conv_one fuel t s w ht (fun c e => hc ⟨c, e⟩)] at h
    split_ifs at h with h1 h2
    · exact convAsRanges_leaves t s w v hf h1 h
    · split at h
      · rename_i se l hs'
        split_ifs at h with hn
        simp only [Option.map_eq_some_iff] at h
        obtain ⟨r, hr, rfl⟩ := h
        rw [leaves, leaves, leavesAll_eq l]
        rw [forall_leaves _ (fun p => leaves p.2) _ _ (mapAll_forall _ _ _ hr)
          (fun p hp y hy => ?_)]
        · exact flatMap_zip_snd leaves _ _ hn
        · have := conv_leaves fuel p.1 [(se, p.2)] y ?_
            (flat_elements t hf _ (List.of_mem_zip hp).1) (by simp) ?_ hy
          · simpa using this
          · intro a ha'
            obtain rfl := List.mem_singleton.mp ha'
            exact has_range s se l hs' hw p.2 (List.of_mem_zip hp).2
          · intro a ha'
            obtain rfl := List.mem_singleton.mp ha'
            exact filled_range s se hs' hs
      · exact absurd h (by simp)
    · split at h
      · rename_i ss l
        have hl := hasAll_length ss l hw
        rw [conv_leaves fuel t _ v (fun a ha' => hasAll_zip ss l hw a ha') hf ?_ ?_ h]
        · rw [leaves, leavesAll_eq]
          exact flatMap_zip_snd leaves ss l hl
        · intro he
          have := congrArg List.length he
          rw [List.length_zip, List.length_nil] at this
          exact hs.1 (List.length_eq_zero_iff.mp (by omega))
        · exact fun a ha' => filledAll_mem ss hs.2 a.1 (List.of_mem_zip ha').1
      · exact absurd h (by simp)
      · rw [init_leaves (conv fuel) _ (fun t' ht' a ha' v' hv' => ?_) t hf v h]
        · simp
        · have := conv_leaves fuel t' [a] v' ?_ ht' (by simp) ?_ hv'
          · simpa using this
          · intro b hb
            rw [List.mem_singleton.mp hb]
            exact ha a ha'
          · intro b hb
            rw [List.mem_singleton.mp hb]
            exact hfi a ha'
  | fuel + 1, t, a :: b :: rest, v, ha, hf, hne, hfi, h => by
    rw [conv] at h
    · refine init_leaves (conv fuel) _ (fun t' ht' a' ha' v' hv' => ?_) t hf v h
      have := conv_leaves fuel t' [a'] v' ?_ ht' (by simp) ?_ hv'
      · simpa using this
      · intro b' hb
        rw [List.mem_singleton.mp hb]
        exact ha a' ha'
      · intro b' hb
        rw [List.mem_singleton.mp hb]
        exact hfi a' ha'
    · simp
    · simp

/-- **C81.** A conversion keeps all the numbers in order.  Missing for the full claim: targets with
vectors in vectors and sources with empty tuples, where the code is wrong
(`convert_vec_vec_fails`, `convert_empty_tuple`). -/
theorem convert_leaves_partial (t : Ty) (args : List (Ty × Val)) (v : Val)
    (ha : ∀ a ∈ args, Has a.1 a.2) (hne : args ≠ []) (ht : Flat t) (hs : ∀ a ∈ args, Filled a.1)
    (h : convertTo t args = some v) : leaves v = args.flatMap fun a => leaves a.2 := by
  rw [convertTo] at h
  split_ifs at h
  exact conv_leaves _ t args v ha ht hne hs h

/-! ### Where the code is wrong -/

theorem mapAll_some {α β : Type} (f : α → Option β) (g : α → β) : ∀ l : List α,
    (∀ x ∈ l, f x = some (g x)) → mapAll f l = some (l.map g)
  | [], _ => rfl
  | x :: l, h => by
    rw [mapAll, h x List.mem_cons_self, mapAll_some f g l (fun y hy => h y (List.mem_cons_of_mem _ hy))]
    rfl

/-- **C81, the code is wrong.** Converting a vector of numbers to a vector of vectors of numbers makes
a vector of `n` zeros out of every number `n`. -/
theorem convert_vec_vec_fails (ns : List Nat) :
    convertTo (.vec (.vec .num)) [(.vec .num, .seq (ns.map fun (n : Nat) => .num n))] =
      some (.seq (ns.map fun n => .seq (List.replicate n (.num 0)))) := by
  have h1 : canAsRanges (.vec (.vec .num)) (.vec .num) = true := rfl
  rw [convertTo]
  simp only [List.map_cons, List.map_nil]
  rw [can_one _ _ _ (by simp) (by simp), h1, conv_one _ _ _ _ (by simp) (by simp), h1]
  simp only [if_true, convAsRanges, strictRange]
  rw [mapAll_some _ (fun v => match v with
    | .num n => .seq (List.replicate n.toNat (.num 0)) | .seq l => .seq l)]
  · simp
  · intro x hx
    obtain ⟨n, _, rfl⟩ := List.mem_map.mp hx
    simp [construct, dflt]

/-- **C81, the code is wrong.** An empty tuple converts to every tuple, array and vector, although
the sizes differ; all the elements are default values. -/
theorem convert_empty_tuple (t : Ty) (ht : t ≠ .num) (hc : ∀ c, t ≠ .const c) :
    convertTo t [(.tuple [], .seq [])] = some (dflt t) := by
  have h1 : canAsRanges t (.tuple []) = false := by
    cases t <;> simp [canAsRanges, strictRange]
  have h2 : ∀ f, canRangeToTuple f t (.tuple []) = false := by
    intro f
    simp [canRangeToTuple, strictRange]
  have h3 : ∀ fuel, can (fuel + 2) t [.tuple []] = true := by
    intro fuel
    rw [can_one _ _ _ ht hc]
    simp [h1, h2, can]
  rw [convertTo]
  simp only [List.map_cons, List.map_nil, Ty.sizeAll, Ty.size]
  rw [h3, if_pos rfl, conv_one _ _ _ _ ht hc, h1, h2]
  simp [conv]

/-- **C81, the code is wrong.** A tuple whose only element is a tuple of two does not convert to its
own type. -/
theorem nested_tuple_not_convertible (fuel : Nat) (a b : Ty) :
    can fuel (.tuple [.tuple [a, b]]) [.tuple [.tuple [a, b]]] = false := by
  cases fuel with
  | zero => rfl
  | succ fuel =>
    rw [can_one _ _ _ (by simp) (by simp)]
    simp only [canAsRanges, canRangeToTuple, strictRange, Bool.and_false, Bool.false_eq_true,
      if_false]
    cases fuel with
    | zero => rfl
    | succ fuel =>
      rw [can_one _ _ _ (by simp) (by simp)]
      simp only [canAsRanges, canRangeToTuple, strictRange, Bool.and_false, Bool.false_eq_true,
        if_false]
      cases fuel with
      | zero => rfl
      | succ fuel => rw [can] <;> simp [canInit]

/-- **C81, the code is wrong.** Any vector is said to convert to any other vector, ... -/
theorem can_vec_vec (fuel : Nat) (t s : Ty) : can (fuel + 1) (.vec t) [.vec s] = true := by
  rw [can_one _ _ _ (by simp) (by simp)]
  simp [canAsRanges, strictRange, staticSize, sizesMatch]

/-- ... even if the program does not compile. -/
theorem vec_tuple_not_constructible (t : Ty) (ss : List Ty) (v : Val) (hv : Has (.tuple ss) v)
    (ht : ∀ l, t ≠ .tuple l) : construct t (.tuple ss) v = none := by
  cases v with
  | num n => simp [Has] at hv
  | seq l => cases t <;> simp_all [construct, same]

/-! ### The bound on the recursion -/

theorem size_mem (l : List Ty) : ∀ t ∈ l, t.size < Ty.sizeAll l := by
  induction l with
  | nil => simp
  | cons s l ih =>
    intro t ht
    rw [Ty.sizeAll]
    rcases List.mem_cons.mp ht with rfl | ht
    · omega
    · have := ih t ht
      omega

theorem size_elements (t : Ty) : ∀ te ∈ elements t, te.size < t.size := by
  cases t with
  | tuple l =>
    intro te h
    have := size_mem l te h
    rw [Ty.size]
    omega
  | arr t n =>
    intro te h
    rw [(List.mem_replicate.mp h).2, Ty.size]
    omega
  | num | const c | vec t => intro te h; simp [elements] at h

theorem size_range (s se : Ty) (h : strictRange s = some se) : se.size < s.size := by
  cases s with
  | arr t n =>
    simp only [strictRange, Option.some.injEq] at h
    rw [← h, Ty.size]
    omega
  | vec t =>
    simp only [strictRange, Option.some.injEq] at h
    rw [← h, Ty.size]
    omega
  | num | const c | tuple l => simp [strictRange] at h

theorem all_congr {α : Type} {f g : α → Bool} : ∀ {l : List α}, (∀ x ∈ l, f x = g x) →
    l.all f = l.all g
  | [], _ => rfl
  | x :: l, h => by
    rw [List.all_cons, List.all_cons, h x List.mem_cons_self,
      all_congr (fun y hy => h y (List.mem_cons_of_mem _ hy))]

theorem canInit_congr (f g : Ty → List Ty → Bool) (t : Ty) (args : List Ty)
    (h : ∀ t' s, t'.size < t.size → s ∈ args → f t' [s] = g t' [s]) :
    canInit f t args = canInit g t args := by
  cases t with
  | num | const c => rfl
  | vec te =>
    exact all_congr (fun s hs => h te s (by rw [Ty.size]; omega) hs)
  | arr te n =>
    rw [canInit, canInit, all_congr (fun s hs => h te s (by rw [Ty.size]; omega) hs)]
  | tuple ts =>
    rw [canInit, canInit]
    congr 1
    refine all_congr (fun p hp => h p.1 p.2 ?_ (List.of_mem_zip hp).2)
    have := size_mem ts _ (List.of_mem_zip hp).1
    rw [Ty.size]
    omega

theorem canRangeToTuple_congr (f g : Ty → List Ty → Bool) (t s : Ty)
    (h : ∀ t' s', t'.size < t.size → s'.size < s.size → f t' [s'] = g t' [s']) :
    canRangeToTuple f t s = canRangeToTuple g t s := by
  unfold canRangeToTuple
  congr 1
  cases hs : strictRange s with
  | none => rfl
  | some se =>
    simp only
    congr 1
    exact all_congr (fun te hte => h te se (size_elements t te hte) (size_range s se hs))

/-- **C81.** More fuel than the sizes of the types changes nothing. -/
theorem can_fuel : ∀ (n : Nat) (t : Ty) (args : List Ty), t.size + Ty.sizeAll args < n →
    can n t args = can (n + 1) t args
  | 0, _, _, h => by omega
  | _ + 1, _, [], _ => rfl
  | n + 1, t, [s], h => by
    have hs : Ty.sizeAll [s] = 1 + s.size := by simp [Ty.sizeAll]
    rw [hs] at h
    have hr := canRangeToTuple_congr (can n) (can (n + 1)) t s (fun t' s' h1 h2 =>
      can_fuel n t' [s'] (by simp only [Ty.sizeAll]; omega))
    have hi := canInit_congr (can n) (can (n + 1)) t [s] (fun t' s' h1 h2 => by
      rw [List.mem_singleton] at h2
      subst h2
      exact can_fuel n t' [s'] (by simp only [Ty.sizeAll]; omega))
    have ht : ∀ ss, s = .tuple ss → can n t ss = can (n + 1) t ss := fun ss e =>
      can_fuel n t ss (by subst e; rw [Ty.size] at h; omega)
    by_cases h1 : t = .num
    · subst h1; rfl
    by_cases h2 : ∃ c, t = .const c
    · obtain ⟨c, rfl⟩ := h2; rfl
    have h2' : ∀ c, t ≠ .const c := fun c e => h2 ⟨c, e⟩
    rw [can_one _ _ _ h1 h2', can_one _ _ _ h1 h2', hr]
    cases s <;> first | simp only [ht _ rfl] | simp only [hi]
  | n + 1, t, a :: b :: rest, h => by
    rw [can, can]
    · exact canInit_congr (can n) (can (n + 1)) t _ (fun t' s h1 h2 => by
        have := size_mem _ s h2
        exact can_fuel n t' [s] (by simp only [Ty.sizeAll] at *; omega))
    all_goals simp

theorem mapAll_congr {α β : Type} {f g : α → Option β} : ∀ {l : List α}, (∀ x ∈ l, f x = g x) →
    mapAll f l = mapAll g l
  | [], _ => rfl
  | x :: l, h => by
    rw [mapAll, mapAll, h x List.mem_cons_self,
      mapAll_congr (fun y hy => h y (List.mem_cons_of_mem _ hy))]

theorem init_congr (f g : Ty → List (Ty × Val) → Option Val) (t : Ty) (args : List (Ty × Val))
    (h : ∀ t' a, t'.size < t.size → a ∈ args → f t' [a] = g t' [a]) :
    init f t args = init g t args := by
  cases t with
  | num | const c => rfl
  | vec te =>
    rw [init, init, mapAll_congr (fun a ha => h te a (by rw [Ty.size]; omega) ha)]
  | arr te n =>
    rw [init, init, mapAll_congr (fun a ha => h te a (by rw [Ty.size]; omega) ha)]
  | tuple ts =>
    have : mapAll (fun p => f p.1 [p.2]) (ts.zip args) =
        mapAll (fun p => g p.1 [p.2]) (ts.zip args) := by
      refine mapAll_congr (fun p hp => h p.1 p.2 ?_ (List.of_mem_zip hp).2)
      have := size_mem ts _ (List.of_mem_zip hp).1
      rw [Ty.size]
      omega
    rw [init, init, this]

theorem sizeAll_zip : ∀ (ss : List Ty) (l : List Val),
    Ty.sizeAll ((ss.zip l).map Prod.fst) ≤ Ty.sizeAll ss
  | [], _ => by simp [Ty.sizeAll]
  | s :: ss, [] => by simp [Ty.sizeAll]
  | s :: ss, v :: l => by
    have := sizeAll_zip ss l
    simp only [List.zip_cons_cons, List.map_cons, Ty.sizeAll]
    omega

/-- **C81.** More fuel than the sizes of the types changes nothing. -/
theorem conv_fuel : ∀ (n : Nat) (t : Ty) (args : List (Ty × Val)),
    t.size + Ty.sizeAll (args.map Prod.fst) < n → conv n t args = conv (n + 1) t args
  | 0, _, _, h => by omega
  | _ + 1, _, [], _ => rfl
  | n + 1, t, [(s, v)], h => by
    have hs : Ty.sizeAll ([(s, v)].map Prod.fst) = 1 + s.size := by simp [Ty.sizeAll]
    rw [hs] at h
    have hr := canRangeToTuple_congr (can n) (can (n + 1)) t s (fun t' s' h1 h2 =>
      can_fuel n t' [s'] (by simp only [Ty.sizeAll]; omega))
    have hm : ∀ se, strictRange s = some se → ∀ l : List Val,
        mapAll (fun p => conv n p.1 [(se, p.2)]) ((elements t).zip l) =
        mapAll (fun p => conv (n + 1) p.1 [(se, p.2)]) ((elements t).zip l) := by
      intro se hse l
      refine mapAll_congr (fun p hp => conv_fuel n p.1 [(se, p.2)] ?_)
      have h1 := size_elements t _ (List.of_mem_zip hp).1
      have h2 := size_range s se hse
      simp only [List.map_cons, List.map_nil, Ty.sizeAll]
      omega
    have hi := init_congr (conv n) (conv (n + 1)) t [(s, v)] (fun t' a h1 h2 => by
      rw [List.mem_singleton] at h2
      subst h2
      exact conv_fuel n t' [(s, v)] (by simp only [List.map_cons, List.map_nil, Ty.sizeAll]; omega))
    have ht : ∀ ss, s = .tuple ss → ∀ l, conv n t (ss.zip l) = conv (n + 1) t (ss.zip l) :=
      fun ss e l => conv_fuel n t _ (by
        have := sizeAll_zip ss l
        subst e
        rw [Ty.size] at h
        omega)
    by_cases h1 : t = .num
    · subst h1; rfl
    by_cases h2 : ∃ c, t = .const c
    · obtain ⟨c, rfl⟩ := h2; rfl
    have h2' : ∀ c, t ≠ .const c := fun c e => h2 ⟨c, e⟩
    rw [conv_one _ _ _ _ h1 h2', conv_one _ _ _ _ h1 h2', hr]
    congr 2
    · cases hse : strictRange s with
      | none => rfl
      | some se =>
        cases v with
        | num k => rfl
        | seq l => simp only [hm se hse l]
    · cases s <;> cases v <;> first | rfl | simp only [ht _ rfl] | simp only [hi]
  | n + 1, t, a :: b :: rest, h => by
    rw [conv, conv]
    · exact init_congr (conv n) (conv (n + 1)) t _ (fun t' a' h1 h2 => by
        have := size_mem _ a'.1 (List.mem_map_of_mem h2)
        exact conv_fuel n t' [a'] (by
          simp only [List.map_cons, List.map_nil, Ty.sizeAll] at *; omega))
    all_goals simp

/-! ### Conversions between vectors, arrays and tuples of numbers -/

theorem mapAll_zip_snd {α β γ : Type} (f : α × β → Option γ) (g : β → γ) : ∀ (a : List α) (b : List β),
    a.length = b.length → (∀ p ∈ a.zip b, f p = some (g p.2)) → mapAll f (a.zip b) = some (b.map g)
  | [], [], _, _ => rfl
  | x :: a, y :: b, h, hf => by
    rw [List.zip_cons_cons, mapAll, hf (x, y) (by simp),
      mapAll_zip_snd f g a b (by simpa using h)
        (fun p hp => hf p (by rw [List.zip_cons_cons]; exact List.mem_cons_of_mem _ hp))]
    rfl
  | [], _ :: _, h, _ | _ :: _, [], h, _ => by simp at h

/-- **C81.** A vector converts to a tuple of numbers exactly if it has the right size, and then the
tuple has its elements. -/
theorem convert_vec_tuple (k : Nat) (ns : List Int) :
    convertTo (.tuple (List.replicate k .num)) [(.vec .num, .seq (ns.map .num))] =
      if ns.length = k then some (.seq (ns.map .num)) else none := by
  have h1 : canAsRanges (.tuple (List.replicate k .num)) (.vec .num) = false := rfl
  have h2 : ∀ fuel, canRangeToTuple (can (fuel + 1)) (.tuple (List.replicate k .num)) (.vec .num) =
      true := by
    intro fuel
    simp [canRangeToTuple, isTuple, strictRange, staticSize, sizesMatch, elements, can]
  rw [convertTo]
  simp only [List.map_cons, List.map_nil, Ty.sizeAll, Ty.size]
  rw [show 1 + Ty.sizeAll (List.replicate k Ty.num) + (1 + (1 + 1) + 0) + 1 =
      (Ty.sizeAll (List.replicate k Ty.num) + 3) + 1 + 1 by omega]
  rw [can_one _ _ _ (by simp) (by simp), conv_one _ _ _ _ (by simp) (by simp), h1, h2]
  simp only [Bool.false_eq_true, if_false, if_true, strictRange, elements, List.length_replicate,
    List.length_map]
  by_cases hk : ns.length = k
  · rw [if_pos hk.symm, if_pos hk, mapAll_zip_snd _ id _ _ (by simp [hk])]
    · simp
    · intro p hp
      have := (List.mem_replicate.mp (List.of_mem_zip hp).1).2
      rw [this]
      rfl
  · rw [if_neg (fun e => hk e.symm), if_neg hk]

/-- **C81.** A vector converts to an array of numbers exactly if it has the right size, and then the
array has its elements. -/
theorem convert_vec_arr (k : Nat) (ns : List Int) :
    convertTo (.arr .num k) [(.vec .num, .seq (ns.map .num))] =
      if ns.length = k then some (.seq (ns.map .num)) else none := by
  have h1 : canAsRanges (.arr .num k) (.vec .num) = true := by
    simp [canAsRanges, strictRange, staticSize, sizesMatch, assignable]
  rw [convertTo]
  simp only [List.map_cons, List.map_nil]
  rw [can_one _ _ _ (by simp) (by simp), conv_one _ _ _ _ (by simp) (by simp), h1]
  simp only [if_true, convAsRanges, strictRange, List.length_map]
  by_cases hk : ns.length = k
  · rw [if_pos hk.symm, if_pos hk, mapAll_some _ id]
    · simp
    · intro x _
      rfl
  · rw [if_neg (fun e => hk e.symm), if_neg hk]

/-- **C81.** Several numbers make a vector of them. -/
theorem convert_numbers_vec (a b : Int) (ns : List Int) :
    convertTo (.vec .num) ((a :: b :: ns).map fun n => (.num, .num n)) =
      some (.seq ((a :: b :: ns).map .num)) := by
  have e : ∀ l : List Int, (l.map fun n => (Ty.num, Val.num n)).map Prod.fst = l.map fun _ => .num :=
    fun l => by rw [List.map_map]; rfl
  have hc : ∀ fuel, can (fuel + 2) (.vec .num) ((a :: b :: ns).map fun _ => .num) = true := by
    intro fuel
    rw [List.map_cons, List.map_cons, can]
    · simp [canInit, can]
    · simp
    · simp
  have hv : ∀ fuel, conv (fuel + 2) (.vec .num) ((a :: b :: ns).map fun n => (.num, .num n)) =
      some (.seq ((a :: b :: ns).map .num)) := by
    intro fuel
    have : mapAll (fun x => conv (fuel + 1) .num [x])
        ((a :: b :: ns).map fun n => ((.num, .num n) : Ty × Val)) =
        some ((a :: b :: ns).map .num) := by
      rw [mapAll_some _ Prod.snd, List.map_map]
      · rfl
      · intro x hx
        obtain ⟨n, _, rfl⟩ := List.mem_map.mp hx
        rfl
    rw [List.map_cons, List.map_cons, conv]
    · rw [init, ← List.map_cons (f := fun n => ((.num, .num n) : Ty × Val)),
        ← List.map_cons (f := fun n => ((.num, .num n) : Ty × Val)), this]
      rfl
    · simp
    · simp
  have hf : ∃ fuel, Ty.size (.vec .num) + Ty.sizeAll ((a :: b :: ns).map fun _ => .num) + 1 =
      fuel + 2 := by
    refine ⟨Ty.sizeAll ((a :: b :: ns).map fun _ => .num) + 1, ?_⟩
    simp only [Ty.size]
    omega
  obtain ⟨fuel, hf⟩ := hf
  rw [convertTo]
  rw [e, hf, hc, if_pos rfl, hv]

/-! ### Examples -/

example : convertTo (.tuple [.num, .arr .num 2]) [(.tuple [.num, .vec .num],
    .seq [.num 5, .seq [.num 4, .num 2]])] = some (.seq [.num 5, .seq [.num 4, .num 2]]) := by
  rfl

example : Flat (.tuple [.num, .arr .num 2]) ∧ Filled (.tuple [.num, .vec .num]) := by
  simp [Flat, FlatAll, Filled, FilledAll]

example : Has (.tuple [.num, .vec .num]) (.seq [.num 5, .seq [.num 4, .num 2]]) := by
  simp [Has, HasAll]

example : convertTo (.tuple [.num, .num]) [(.vec .num, .seq [.num 5, .num 4, .num 2])] = none := by
  rfl

end Actl.Convert
